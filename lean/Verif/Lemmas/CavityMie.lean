import Verif.Lemmas.CavityGram
import Verif.Lemmas.MieSize

/-! Sign and size of the Mie coefficients of a sphere and of the wall of a cavity, compared with perfect conductors of the same or the
other polarisation. -/

namespace CasSph

open Spec

/-- `x k_{l-1}(x)/k_l(x)` increases strictly, its quotient by `x²` decreases. -/
theorem kRatio_mono : ∀ {l : ℕ}, 1 ≤ l → ∀ {x y : ℝ}, 0 < x → x ≤ y →
    x * (sphK (l - 1) x / sphK l x) ≤ y * (sphK (l - 1) y / sphK l y) ∧
      y * (sphK (l - 1) y / sphK l y) * x ^ 2 ≤ x * (sphK (l - 1) x / sphK l x) * y ^ 2 ∧
      (x < y → x * (sphK (l - 1) x / sphK l x) < y * (sphK (l - 1) y / sphK l y)) := by
  intro l hl
  induction l, hl using Nat.le_induction with
  | base =>
    intro x y hx hxy
    have hy : 0 < y := hx.trans_le hxy
    have e : ∀ u : ℝ, 0 < u → u * (sphK (1 - 1) u / sphK 1 u) = u ^ 2 / (u + 1) := by
      intro u hu
      have h1 : u * sphK 1 u = (u + 1) * sphK 0 u := by
        unfold sphK
        simp [Finset.sum_range_succ]
        field_simp
      have h0 := sphK_pos 0 hu
      have h1' := sphK_pos 1 hu
      rw [← mul_div_assoc, div_eq_div_iff h1'.ne' (by positivity)]
      linear_combination (-u) * h1
    rw [e x hx, e y hy]
    refine ⟨?_, ?_, ?_⟩
    · rw [div_le_div_iff₀ (by positivity) (by positivity)]
      nlinarith [mul_nonneg (mul_pos hx hy).le (sub_nonneg.mpr hxy), mul_nonneg (add_pos hx hy).le (sub_nonneg.mpr hxy)]
    · rw [div_mul_eq_mul_div, div_mul_eq_mul_div, div_le_div_iff₀ (by positivity) (by positivity)]
      have : 0 ≤ (x ^ 2 * y ^ 2) * (y - x) := mul_nonneg (by positivity) (by linarith)
      nlinarith
    · intro h
      rw [div_lt_div_iff₀ (by positivity) (by positivity)]
      nlinarith [mul_pos (mul_pos hx hy) (sub_pos.mpr h), mul_pos (add_pos hx hy) (sub_pos.mpr h)]
  | succ l hl ih =>
    intro x y hx hxy
    have hy : 0 < y := hx.trans_le hxy
    obtain ⟨h1, h2, -⟩ := ih hx hxy
    have e : ∀ u : ℝ, 0 < u → u * (sphK (l + 1 - 1) u / sphK (l + 1) u) = u ^ 2 / (u * (sphK (l - 1) u / sphK l u) + (2 * l + 1)) ∧
        0 < u * (sphK (l - 1) u / sphK l u) := by
      intro u hu
      obtain ⟨c, rfl⟩ := Nat.exists_eq_add_of_le' hl
      have k0 := sphK_pos c hu
      have k1 := sphK_pos (c + 1) hu
      have k2 := sphK_pos (c + 2) hu
      simp only [Nat.add_sub_cancel]
      refine ⟨?_, by positivity⟩
      have hr := sphK_rec c hu.ne'
      have hr' : u * sphK (c + 2) u = u * sphK c u + (2 * c + 3) * sphK (c + 1) u := by
        rw [hr]; field_simp
      have hd : 0 < u * (sphK c u / sphK (c + 1) u) + (2 * ((c + 1 : ℕ) : ℝ) + 1) := by positivity
      rw [← mul_div_assoc, div_eq_div_iff k2.ne' hd.ne']
      push_cast
      have : u * sphK (c + 1) u * (u * (sphK c u / sphK (c + 1) u)) = u * (u * sphK c u) := by field_simp
      linear_combination this - u * hr'
    obtain ⟨ex, px⟩ := e x hx
    obtain ⟨ey, py⟩ := e y hy
    rw [ex, ey]
    generalize x * (sphK (l - 1) x / sphK l x) = R at *
    generalize y * (sphK (l - 1) y / sphK l y) = S at *
    refine ⟨?_, ?_, ?_⟩
    · rw [div_le_div_iff₀ (by positivity) (by positivity)]
      have : x ^ 2 * (2 * (l : ℝ) + 1) ≤ y ^ 2 * (2 * l + 1) := by gcongr
      nlinarith
    · rw [div_mul_eq_mul_div, div_mul_eq_mul_div, div_le_div_iff₀ (by positivity) (by positivity)]
      have : 0 ≤ (x ^ 2 * y ^ 2) * (S - R) := mul_nonneg (by positivity) (by linarith)
      nlinarith
    · intro h
      rw [div_lt_div_iff₀ (by positivity) (by positivity)]
      have : x ^ 2 * (2 * (l : ℝ) + 1) < y ^ 2 * (2 * l + 1) := by gcongr
      nlinarith

/-- Comparison of the outgoing logarithmic derivatives of two media of the same permeability. -/
theorem kd_num {l : ℕ} (hl : 1 ≤ l) {c w : ℝ} (hc : 0 < c) (hw : 0 < w) {u v : ℝ} (hv : 0 < v) (huv : v ≤ u) :
    kdX l (c * Real.sqrt (u * w)) ≤ kdX l (c * Real.sqrt (v * w)) ∧
      u * kdX l (c * Real.sqrt (v * w)) ≤ v * kdX l (c * Real.sqrt (u * w)) := by
  have hu : 0 < u := hv.trans_le huv
  have hx : 0 < c * Real.sqrt (v * w) := mul_pos hc (Real.sqrt_pos.2 (mul_pos hv hw))
  have hxy : c * Real.sqrt (v * w) ≤ c * Real.sqrt (u * w) :=
    mul_le_mul_of_nonneg_left (Real.sqrt_le_sqrt (mul_le_mul_of_nonneg_right huv hw.le)) hc.le
  obtain ⟨h1, h2, -⟩ := kRatio_mono hl hx hxy
  unfold kdX
  refine ⟨by linarith, ?_⟩
  rw [mul_pow, mul_pow, Real.sq_sqrt (mul_pos hv hw).le, Real.sq_sqrt (mul_pos hu hw).le] at h2
  generalize c * Real.sqrt (v * w) * (sphK (l - 1) (c * Real.sqrt (v * w)) / sphK l (c * Real.sqrt (v * w))) = R at *
  generalize c * Real.sqrt (u * w) * (sphK (l - 1) (c * Real.sqrt (u * w)) / sphK l (c * Real.sqrt (u * w))) = S at *
  have hcw : 0 < c ^ 2 * w := by positivity
  have h3 : S * v ≤ R * u := by
    by_contra hn
    push Not at hn
    nlinarith [mul_lt_mul_of_pos_left hn hcw]
  have h4 : v * (l : ℝ) ≤ u * l := mul_le_mul_of_nonneg_right huv (by positivity)
  nlinarith

theorem pecR_flip (P : Bool) (c : ℕ) {ρ : ℝ} (hρ : 0 < ρ) : pecR P c ρ ≤ 3 * pecR (!P) c ρ := by
  have hl : 1 ≤ c + 1 := by omega
  have hJ := idX_pos hl hρ
  have hK := kdX_neg hl hρ
  have h1 := kdX_le_idX hl hρ
  have h2 := idX_le hl hρ
  have h3 := kdX_ge hl hρ
  have h4 : ((c + 1 : ℕ) : ℝ) ≤ -kdX (c + 1) ρ := by
    unfold kdX
    have := div_pos (sphK_pos (c + 1 - 1) hρ) (sphK_pos (c + 1) hρ)
    have := mul_pos hρ this
    linarith
  have hT := pecR_true c hρ
  have hF : pecR false c ρ = Real.pi / 2 * (sphI (c + 1) ρ / sphK (c + 1) ρ) := rfl
  have hik : 0 < sphI (c + 1) ρ / sphK (c + 1) ρ := div_pos (sphI_pos _ hρ) (sphK_pos _ hρ)
  have hpi := Real.pi_pos
  have g1 : 1 ≤ idX (c + 1) ρ / -kdX (c + 1) ρ := by rw [le_div_iff₀ (by linarith)]; linarith
  have g2 : idX (c + 1) ρ / -kdX (c + 1) ρ ≤ 3 := by rw [div_le_iff₀ (by linarith)]; linarith
  generalize sphI (c + 1) ρ / sphK (c + 1) ρ = F at *
  generalize idX (c + 1) ρ / -kdX (c + 1) ρ = G at *
  cases P
  · rw [Bool.not_false, hT, hF]
    have := mul_le_mul_of_nonneg_left (mul_le_mul_of_nonneg_right g1 hik.le) (show 0 ≤ Real.pi / 2 by positivity)
    have h0 : 0 ≤ Real.pi / 2 * (G * F) := mul_nonneg (by positivity) (mul_nonneg (by linarith) hik.le)
    linarith
  · rw [Bool.not_true, hT, hF]
    have := mul_le_mul_of_nonneg_left (mul_le_mul_of_nonneg_right g2 hik.le) (show 0 ≤ Real.pi / 2 by positivity)
    linarith

/-! ## amplitudes -/

/-- Mie coefficients with the signs `σ(-1)^l` (TE), `-σ(-1)^l` (TM) and moduli `A` not larger than `bd`. -/
def RefBy (c : MieCoef) (σ : ℝ) (bd A : Bool → ℕ → ℝ) : Prop :=
  ∀ i, (∀ P, 0 ≤ A P i ∧ A P i ≤ bd P i) ∧
    c.TE (i + 1) * Real.exp (c.ln (i + 1)) = σ * (-1) ^ (i + 1) * A false i ∧
    c.TM (i + 1) * Real.exp (c.ln (i + 1)) = -(σ * (-1) ^ (i + 1) * A true i)

theorem refBy_of {c : MieCoef} {σ : ℝ} (hσ : σ * σ = 1) {bd : Bool → ℕ → ℝ}
    (h : ∀ i, ∃ t s F, c.TE (i + 1) * Real.exp (c.ln (i + 1)) = (-1) ^ (i + 1) * (t * F) ∧
      c.TM (i + 1) * Real.exp (c.ln (i + 1)) = (-1) ^ (i + 1) * (s * F) ∧ 0 ≤ F ∧ 0 ≤ σ * t ∧ 0 ≤ -(σ * s) ∧
      σ * t * F ≤ bd false i ∧ -(σ * s) * F ≤ bd true i) : ∃ A, RefBy c σ bd A := by
  choose t s F h1 h2 h3 h4 h5 h6 h7 using h
  refine ⟨fun P i => bif P then -(σ * s i) * F i else σ * t i * F i, fun i => ⟨fun P => ?_, ?_, ?_⟩⟩
  · cases P
    · exact ⟨mul_nonneg (h4 i) (h3 i), h6 i⟩
    · exact ⟨mul_nonneg (h5 i) (h3 i), h7 i⟩
  · rw [h1]
    simp only [cond_false]
    linear_combination (-((-1) ^ (i + 1) * (t i * F i))) * hσ
  · rw [h2]
    simp only [cond_true]
    linear_combination (-((-1) ^ (i + 1) * (s i * F i))) * hσ

/-- Dense objects are compared with the same polarisation of a perfect conductor, dilute ones with the other polarisation. -/
noncomputable def flipOf (σ : ℝ) : Bool := decide (σ = -1)

theorem flipOf_one : flipOf 1 = false := by unfold flipOf; norm_num

theorem flipOf_neg : flipOf (-1) = true := by unfold flipOf; norm_num

/-- wall: logarithmic derivatives `I` (regular, inside), `K` (outgoing, inside), `E` (outgoing, in the wall) -/
theorem amp_wall_dense {I K E a b : ℝ} (hI : 0 < I) (hK : K < 0) (hE : E < 0) (ha : 0 < a) (hb : 0 < b) (h1 : E ≤ K) (h2 : b * K ≤ a * E) :
    (0 ≤ (K - E) / (I - E) ∧ (K - E) / (I - E) ≤ 1) ∧
      0 ≤ -((b * K - a * E) / (b * I - a * E)) ∧ -((b * K - a * E) / (b * I - a * E)) ≤ -K / I := by
  have d1 : 0 < I - E := by linarith
  have d2 : 0 < b * I - a * E := by nlinarith [mul_pos hb hI, mul_neg_of_pos_of_neg ha hE]
  refine ⟨⟨div_nonneg (by linarith) d1.le, by rw [div_le_one d1]; linarith⟩, ?_, ?_⟩
  · rw [← neg_div]; exact div_nonneg (by linarith) d2.le
  · rw [← neg_div, div_le_div_iff₀ d2 hI]
    have : 0 ≤ a * (-E) * (I - K) := mul_nonneg (mul_nonneg ha.le (by linarith)) (by linarith)
    nlinarith

theorem amp_wall_dilute {I K E a b : ℝ} (hI : 0 < I) (hK : K < 0) (hE : E < 0) (ha : 0 < a) (hb : 0 < b) (h1 : K ≤ E) (h2 : a * E ≤ b * K) :
    (0 ≤ -((K - E) / (I - E)) ∧ -((K - E) / (I - E)) ≤ -K / I) ∧
      0 ≤ (b * K - a * E) / (b * I - a * E) ∧ (b * K - a * E) / (b * I - a * E) ≤ 1 := by
  have d1 : 0 < I - E := by linarith
  have d2 : 0 < b * I - a * E := by nlinarith [mul_pos hb hI, mul_neg_of_pos_of_neg ha hE]
  refine ⟨⟨?_, ?_⟩, div_nonneg (by linarith) d2.le, ?_⟩
  · rw [← neg_div]; exact div_nonneg (by linarith) d1.le
  · rw [← neg_div, div_le_div_iff₀ d1 hI]
    have : 0 ≤ (-E) * (I - K) := mul_nonneg (by linarith) (by linarith)
    nlinarith
  · rw [div_le_one d2]
    have : b * K ≤ b * I := mul_le_mul_of_nonneg_left (by linarith) hb.le
    linarith

/-- sphere: `I` inside, `J` (regular) and `K` (outgoing) outside -/
theorem amp_ball_dilute {I J K u v : ℝ} (hI : 0 < I) (hJ : 0 < J) (hK : K < 0) (hu : 0 < u) (hv : 0 < v) (hn : 0 ≤ v * I - u * J) (hd : I ≤ J) :
    (0 ≤ -((I - J) / (I - K)) ∧ -((I - J) / (I - K)) ≤ J / -K) ∧
      0 ≤ (v * I - u * J) / (v * I - u * K) ∧ (v * I - u * J) / (v * I - u * K) ≤ 1 := by
  have h1 : 0 < I - K := by linarith
  have h2 : 0 < v * I - u * K := by nlinarith
  refine ⟨⟨?_, ?_⟩, div_nonneg hn h2.le, ?_⟩
  · rw [← neg_div]; exact div_nonneg (by linarith) h1.le
  · rw [← neg_div, div_le_div_iff₀ h1 (by linarith)]
    have : 0 ≤ I * (J - K) := mul_nonneg hI.le (by linarith)
    nlinarith
  · rw [div_le_one h2]; nlinarith

theorem refBy_reflects {c : MieCoef} {ρ : ℝ} {A : Bool → ℕ → ℝ} (h : Reflects c 1 ρ A) :
    RefBy c 1 (fun P i => pecR (xor (flipOf 1) P) i ρ) A := by
  simp only [flipOf_one, Bool.false_xor]
  exact h

theorem cavR_false (c : ℕ) (ρ : ℝ) : cavR false c ρ = 2 / Real.pi * (sphK (c + 1) ρ / sphI (c + 1) ρ) := by
  unfold cavR
  have : pecR false c ρ = Real.pi / 2 * (sphI (c + 1) ρ / sphK (c + 1) ρ) := rfl
  rw [this, mul_inv, inv_div, inv_div]

theorem cavR_true (c : ℕ) {ρ : ℝ} (hρ : 0 < ρ) :
    cavR true c ρ = 2 / Real.pi * (-kdX (c + 1) ρ / idX (c + 1) ρ * (sphK (c + 1) ρ / sphI (c + 1) ρ)) := by
  unfold cavR
  rw [pecR_true c hρ, mul_inv, mul_inv, inv_div, inv_div, inv_div]

/-- Comparison of the regular logarithmic derivatives of two media of the same permeability. -/
theorem id_num {l : ℕ} (hl : 1 ≤ l) {c w : ℝ} (hc : 0 < c) (hw : 0 < w) {u v : ℝ} (hv : 0 < v) (huv : v ≤ u) :
    idX l (c * Real.sqrt (v * w)) ≤ idX l (c * Real.sqrt (u * w)) ∧
      v * idX l (c * Real.sqrt (u * w)) ≤ u * idX l (c * Real.sqrt (v * w)) := by
  rcases huv.eq_or_lt with h | h
  · subst h; exact ⟨le_rfl, le_rfl⟩
  · obtain ⟨h1, h2⟩ := mie_num hl hc hw (hv.trans h) hv h
    refine ⟨?_, by linarith⟩
    by_contra hn
    push Not at hn
    nlinarith [mul_lt_mul_of_pos_left hn hw]

theorem medium_is_pos {m : Material} (hm : m.cls ≠ .pec) (hp : m.Physical) {k : ℝ} (hk : 0 < k) {b : Medium} (hb : m.medium k = .ok b) : b.Pos := by
  obtain ⟨a', ha', hap⟩ := medium_pos hm hp hk
  rw [hb] at ha'
  injection ha' with e; rw [e]; exact hap

/-- A sphere, compared with a perfect conductor: the same polarisation if it is dense, the other one if it is dilute. -/
theorem ball_ref {m md : Material} (hmd : md.cls ≠ .pec) (hp : md.Physical) {k r σ : ℝ} (hk : 0 < k) (hr : 0 < r)
    {b : Medium} (hb : md.medium k = .ok b) (hσ : DenseSign m md k σ) {c : MieCoef}
    (hc : ∀ l, 1 ≤ l → mie exactBes exactBes m md l k r = .ok ⟨c.TE l, c.TM l, c.ln l⟩) :
    ∃ A, RefBy c σ (fun P i => pecR (xor (flipOf σ) P) i (k * r * b.n)) A := by
  have hbp := medium_is_pos hmd hp hk hb
  have hxb : 0 < k * r * b.n := mul_pos (mul_pos hk hr) (b.n_pos hbp)
  rcases hσ with h | ⟨h1, hpec, hph, a, b', ha, hb', hmu, hle⟩
  · obtain ⟨A, hA⟩ := reflects_of_mie hmd hp hk hr hb (.inl h) hc
    rw [h.1] at hA ⊢
    exact ⟨A, refBy_reflects hA⟩
  · subst h1
    rw [hb] at hb'
    injection hb' with hb'
    subst hb'
    have hap := medium_is_pos hpec hph hk ha
    have hxa : 0 < k * r * a.n := mul_pos (mul_pos hk hr) (a.n_pos hap)
    refine refBy_of (by norm_num) fun i => ?_
    have hl : 1 ≤ i + 1 := by omega
    have hci := hc (i + 1) hl
    have hid : 0 < idT (i + 1) (k * r * a.n) (exactBes (i + 1) (k * r * a.n)) := idT_pos (exactBes_ok hl hxa)
    rw [mie_diel hpec ha hb, mieCore_ok hap hbp hid (kdT_neg hl hxb _)] at hci
    injection hci with hci
    injection hci with q1 q2 q3
    have hexp : Real.exp (c.ln (i + 1)) = sphI (i + 1) (k * r * b.n) / sphK (i + 1) (k * r * b.n) := by rw [← q3, exactBes_exp hxb]
    rw [idT_exact hl hxa, idT_exact hl hxb, kdT_exact hxb] at q1 q2
    have n := id_num hl (mul_pos hk hr) hbp.2 hap.1 hle
    have eI : idX (i + 1) (k * r * Real.sqrt (a.eps * b.mu)) = idX (i + 1) (k * r * a.n) := by rw [Medium.n, hmu]
    have eJ : idX (i + 1) (k * r * Real.sqrt (b.eps * b.mu)) = idX (i + 1) (k * r * b.n) := rfl
    rw [eI, eJ] at n
    have hik : 0 < sphI (i + 1) (k * r * b.n) / sphK (i + 1) (k * r * b.n) := div_pos (sphI_pos _ hxb) (sphK_pos _ hxb)
    have hpi : 0 < Real.pi / 2 := by have := Real.pi_pos; positivity
    have hT := pecR_true i hxb
    have hF : pecR false i (k * r * b.n) = Real.pi / 2 * (sphI (i + 1) (k * r * b.n) / sphK (i + 1) (k * r * b.n)) := rfl
    have hI := idX_pos hl hxa
    have hJ := idX_pos hl hxb
    have hK := kdX_neg hl hxb
    have t1 : (b.mu * idX (i + 1) (k * r * a.n) - a.mu * idX (i + 1) (k * r * b.n)) /
        (b.mu * idX (i + 1) (k * r * a.n) - a.mu * kdX (i + 1) (k * r * b.n)) =
        (idX (i + 1) (k * r * a.n) - idX (i + 1) (k * r * b.n)) / (idX (i + 1) (k * r * a.n) - kdX (i + 1) (k * r * b.n)) := by
      rw [hmu, ← mul_sub, ← mul_sub, mul_div_mul_left _ _ hbp.2.ne']
    rw [t1] at q1
    simp only [flipOf_neg, Bool.true_xor, Bool.not_false, Bool.not_true]
    rw [hT, hF, hexp, ← q1, ← q2]
    generalize idX (i + 1) (k * r * a.n) = I at *
    generalize idX (i + 1) (k * r * b.n) = J at *
    generalize kdX (i + 1) (k * r * b.n) = K at *
    generalize sphI (i + 1) (k * r * b.n) / sphK (i + 1) (k * r * b.n) = F at *
    obtain ⟨⟨a1, a2⟩, a3, a4⟩ := amp_ball_dilute (u := a.eps) (v := b.eps) hI hJ hK hap.1 hbp.1 (by linarith [n.2]) n.1
    refine ⟨(I - J) / (I - K), (b.eps * I - a.eps * J) / (b.eps * I - a.eps * K), Real.pi / 2 * F, by ring, by ring, by positivity, by linarith, by linarith, ?_, ?_⟩
    · have := mul_le_mul_of_nonneg_right a2 (mul_pos hpi hik).le
      linarith
    · have := mul_le_mul_of_nonneg_right a4 (mul_pos hpi hik).le
      linarith

/-- The wall of a cavity, compared with a perfectly conducting wall. -/
theorem wall_ref {m md : Material} (hmd : md.cls ≠ .pec) (hp : md.Physical) {k r σ : ℝ} (hk : 0 < k) (hr : 0 < r)
    {a : Medium} (ha : md.medium k = .ok a) (hσ : DenseSign m md k σ) {c : MieCoef}
    (hc : ∀ l, 1 ≤ l → mieInternal exactBes exactBes md m l k r = .ok ⟨c.TE l, c.TM l, c.ln l⟩) :
    ∃ A, RefBy c σ (fun P i => cavR (xor (flipOf σ) P) i (k * r * a.n)) A := by
  have hap := medium_is_pos hmd hp hk ha
  have hxa : 0 < k * r * a.n := mul_pos (mul_pos hk hr) (a.n_pos hap)
  have hs2 : σ * σ = 1 := by rcases hσ.sign with h | h <;> rw [h] <;> norm_num
  refine refBy_of hs2 fun i => ?_
  have hl : 1 ≤ i + 1 := by omega
  have hci := hc (i + 1) hl
  have hid : 0 < idT (i + 1) (k * r * a.n) (exactBes (i + 1) (k * r * a.n)) := idT_pos (exactBes_ok hl hxa)
  have hF := cavR_false i (k * r * a.n)
  have hT := cavR_true i hxa
  have hik : 0 < sphK (i + 1) (k * r * a.n) / sphI (i + 1) (k * r * a.n) := div_pos (sphK_pos _ hxa) (sphI_pos _ hxa)
  have hpi : 0 < 2 / Real.pi := by have := Real.pi_pos; positivity
  have hI := idX_pos hl hxa
  have hK := kdX_neg hl hxa
  by_cases hpec : m.cls = .pec
  · have h1 : σ = 1 := by
      rcases hσ with ⟨h, -⟩ | ⟨-, h, -⟩
      · exact h
      · exact absurd hpec h
    subst h1
    rw [mieInternal_pec hpec ha, miePECIntCore_ok hid] at hci
    injection hci with hci
    injection hci with q1 q2 q3
    have hexp : Real.exp (c.ln (i + 1)) = sphK (i + 1) (k * r * a.n) / sphI (i + 1) (k * r * a.n) := by rw [← q3, exactBes_exp' hxa]
    rw [idT_exact hl hxa, kdT_exact hxa] at q2
    simp only [flipOf_one, Bool.false_xor]
    rw [hT, hF, hexp, ← q1, ← q2]
    generalize idX (i + 1) (k * r * a.n) = I at *
    generalize kdX (i + 1) (k * r * a.n) = K at *
    generalize sphK (i + 1) (k * r * a.n) / sphI (i + 1) (k * r * a.n) = F at *
    refine ⟨1, K / I, 2 / Real.pi * F, by ring, by ring, by positivity, by norm_num, ?_, by linarith, le_of_eq (by ring)⟩
    rw [one_mul, ← neg_div]
    exact div_nonneg (by linarith) hI.le
  · have hmed : m.Physical ∧ ∃ b a', m.medium k = .ok b ∧ md.medium k = .ok a' ∧ b.mu = a'.mu ∧
        ((σ = 1 ∧ a'.eps ≤ b.eps) ∨ (σ = -1 ∧ b.eps ≤ a'.eps)) := by
      rcases hσ with ⟨h, h' | ⟨-, h', b, a', q1, q2, q3, q4⟩⟩ | ⟨h, -, h', b, a', q1, q2, q3, q4⟩
      · exact absurd h' hpec
      · exact ⟨h', b, a', q1, q2, q3, .inl ⟨h, q4⟩⟩
      · exact ⟨h', b, a', q1, q2, q3, .inr ⟨h, q4⟩⟩
    obtain ⟨hph, b, a', hb, ha', hmu, hcase⟩ := hmed
    rw [ha] at ha'
    injection ha' with ha'
    subst ha'
    have hbp := medium_is_pos hpec hph hk hb
    have hxb : 0 < k * r * b.n := mul_pos (mul_pos hk hr) (b.n_pos hbp)
    rw [mieInternal_diel hpec ha hb, mieIntCore_ok hap hbp hid (kdT_neg hl hxb _)] at hci
    injection hci with hci
    injection hci with q1 q2 q3
    have hexp : Real.exp (c.ln (i + 1)) = sphK (i + 1) (k * r * a.n) / sphI (i + 1) (k * r * a.n) := by rw [← q3, exactBes_exp' hxa]
    rw [idT_exact hl hxa, kdT_exact hxa, kdT_exact hxb] at q1 q2
    have hE := kdX_neg hl hxb
    have t1 : (b.mu * kdX (i + 1) (k * r * a.n) - a.mu * kdX (i + 1) (k * r * b.n)) /
        (b.mu * idX (i + 1) (k * r * a.n) - a.mu * kdX (i + 1) (k * r * b.n)) =
        (kdX (i + 1) (k * r * a.n) - kdX (i + 1) (k * r * b.n)) / (idX (i + 1) (k * r * a.n) - kdX (i + 1) (k * r * b.n)) := by
      rw [← hmu, ← mul_sub, ← mul_sub, mul_div_mul_left _ _ hbp.2.ne']
    rw [t1] at q1
    have eE : kdX (i + 1) (k * r * Real.sqrt (b.eps * a.mu)) = kdX (i + 1) (k * r * b.n) := by rw [Medium.n, hmu]
    have eK : kdX (i + 1) (k * r * Real.sqrt (a.eps * a.mu)) = kdX (i + 1) (k * r * a.n) := rfl
    rcases hcase with ⟨h1, hle⟩ | ⟨h1, hle⟩
    · subst h1
      have n := kd_num hl (mul_pos hk hr) hap.2 hap.1 hle
      rw [eE, eK] at n
      simp only [flipOf_one, Bool.false_xor]
      rw [hT, hF, hexp, ← q1, ← q2]
      generalize idX (i + 1) (k * r * a.n) = I at *
      generalize kdX (i + 1) (k * r * a.n) = K at *
      generalize kdX (i + 1) (k * r * b.n) = E at *
      generalize sphK (i + 1) (k * r * a.n) / sphI (i + 1) (k * r * a.n) = F at *
      obtain ⟨⟨a1, a2⟩, a3, a4⟩ := amp_wall_dense (a := a.eps) (b := b.eps) hI hK hE hap.1 hbp.1 n.1 n.2
      refine ⟨(K - E) / (I - E), (b.eps * K - a.eps * E) / (b.eps * I - a.eps * E), 2 / Real.pi * F, by ring, by ring, by positivity, by linarith, by linarith, ?_, ?_⟩
      · have := mul_le_mul_of_nonneg_right a2 (mul_pos hpi hik).le
        linarith
      · have := mul_le_mul_of_nonneg_right a4 (mul_pos hpi hik).le
        linarith
    · subst h1
      have n := kd_num hl (mul_pos hk hr) hap.2 hbp.1 hle
      rw [eE, eK] at n
      simp only [flipOf_neg, Bool.true_xor, Bool.not_false, Bool.not_true]
      rw [hT, hF, hexp, ← q1, ← q2]
      generalize idX (i + 1) (k * r * a.n) = I at *
      generalize kdX (i + 1) (k * r * a.n) = K at *
      generalize kdX (i + 1) (k * r * b.n) = E at *
      generalize sphK (i + 1) (k * r * a.n) / sphI (i + 1) (k * r * a.n) = F at *
      obtain ⟨⟨a1, a2⟩, a3, a4⟩ := amp_wall_dilute (a := a.eps) (b := b.eps) hI hK hE hap.1 hbp.1 n.1 n.2
      refine ⟨(K - E) / (I - E), (b.eps * K - a.eps * E) / (b.eps * I - a.eps * E), 2 / Real.pi * F, by ring, by ring, by positivity, by linarith, by linarith, ?_, ?_⟩
      · have := mul_le_mul_of_nonneg_right a2 (mul_pos hpi hik).le
        linarith
      · have := mul_le_mul_of_nonneg_right a4 (mul_pos hpi hik).le
        linarith

end CasSph
