import Verif.Model.FloatPFA
import Verif.Lemmas.FloatMie
import Verif.Lemmas.PFA

/-! # Rounding errors of Fresnel coefficients and of round trips between plates -/

namespace CasSph

open Spec

variable {A : FlMie} {u : ℝ}

theorem flSqrt_near (hA : RelErrM A u) {w a b : ℝ} (h : Near w a b) : Near (w / 2 + 100 / 99 * u) (A.sqrt a) (Real.sqrt b) := by
  have h0 := Real.sqrt_pos.2 h.a0
  have := (hA.toRelErr.near h0 (by rw [abs_of_pos h0]; exact hA.sqrt a h.a0.le)).trans h.sqrt
  rwa [add_comm] at this

/-- The sum of a square, possibly zero, and a positive number. -/
theorem add_sq_near (hA : RelErr A.toFlFun u) (k : ℝ) {w a b : ℝ} (h : Near w a b) (hw : 100 / 99 * u ≤ w) :
    Near (w + 100 / 99 * u) (A.add (A.pow k 2) a) (k ^ 2 + b) := by
  rcases eq_or_ne k 0 with rfl | hk
  · have h0 : A.pow 0 2 = 0 := by
      have := hA.pow 0 2
      norm_num at this
      exact this
    have h1 := hA.add 0 a
    rw [h0]
    rw [zero_add] at h1
    have := (hA.near h.a0 h1).trans h
    rw [add_comm] at this
    simpa using this
  · have k2 : 0 < k ^ 2 := by positivity
    exact hA.add_near ((hA.near k2 (hA.pow k 2)).mono hw) h

theorem near_pow_two {w a b : ℝ} (h : Near w a b) : Near (2 * w) (a ^ 2) (b ^ 2) := by
  rw [pow_two, pow_two, two_mul]; exact h.mul h

theorem root_near (hA : RelErrM A u) (kperp : ℝ) {kn : ℝ} (hk : 0 < kn) {a : Medium} (ha : a.Pos) :
    Near (4.5 * (100 / 99 * u)) (A.root kperp kn a) (Real.sqrt (kperp ^ 2 + (kn * a.n) ^ 2)) := by
  have hu := hA.u0
  have hR := hA.toRelErr
  have e1 : 0 < a.eps := ha.1
  have e2 : 0 < a.mu := ha.2
  have n1 : Near (1.5 * (100 / 99 * u)) (A.n a) a.n := by
    have := flSqrt_near hA (hR.mul_near (Near.refl e1) (Near.refl e2))
    exact this.mono (by norm_num; linarith)
  have n2 := hR.mul_near (Near.refl hk) n1
  have n3 := (hR.near (pow_pos n2.a0 2) (hR.pow _ 2)).trans (near_pow_two n2)
  have n4 := flSqrt_near hA (add_sq_near hR kperp n3 (by linarith))
  exact n4.mono (by linarith)

/-- The quotient `(a - b)/(a + b)`. -/
theorem amp_err (hA : RelErr A.toFlFun u) (hu : u ≤ 1 / 1000) {a b a' b' : ℝ} (ha : Near (5.5 * (100 / 99 * u)) a' a)
    (hb : Near (5.5 * (100 / 99 * u)) b' b) :
    A.quot (A.sub a' b') (A.add a' b') = .ok (A.div (A.sub a' b') (A.add a' b')) ∧
    |A.div (A.sub a' b') (A.add a' b') - (a - b) / (a + b)| ≤ 16 * u := by
  have u0 := hA.u0
  have a0 := ha.b0
  have b0 := hb.b0
  have hs := hA.add_near ha hb
  have da := ha.abs_sub (by linarith)
  have db := hb.abs_sub (by linarith)
  have ds := hs.abs_sub (by linarith)
  have hm : |a - b| ≤ a + b := by rw [abs_le]; constructor <;> linarith
  have dn := hA.sub_abs da db hm
  have s0 := hs.a0
  generalize A.add a' b' = D at *
  generalize A.sub a' b' = N at *
  refine ⟨by unfold FlMie.quot; rw [if_neg s0.ne'], ?_⟩
  have hq := hA.div N D s0.ne'
  generalize A.div N D = Q at *
  set S := a + b with hS
  have S0 : 0 < S := by positivity
  have dn' : |N - (a - b)| ≤ 6.86 * u * S := by
    refine dn.trans ?_
    have : 21 / 20 * (5.5 * (100 / 99 * u)) * a + 21 / 20 * (5.5 * (100 / 99 * u)) * b = 5.8334 * u * S - (5.8334 - 21 / 20 * 5.5 * (100 / 99)) * (u * S) := by
      rw [hS]; ring
    have uS : 0 ≤ u * S := by positivity
    have t : u * (u * S) ≤ 1 / 1000 * (u * S) := mul_le_mul_of_nonneg_right hu uS
    nlinarith
  have ds' : |D - S| ≤ 6.9 * u * S := ds.trans (by nlinarith [mul_nonneg u0 S0.le])
  have Dl : 0.993 * S ≤ D := by nlinarith [(abs_le.1 ds').1]
  have e : N / D - (a - b) / S = (N - (a - b)) / D + (a - b) / S * ((S - D) / D) := by field_simp; ring
  have h1 : |N / D - (a - b) / S| ≤ 13.9 * u := by
    rw [e]
    have t1 : |(N - (a - b)) / D| ≤ 6.95 * u := by
      rw [abs_div, abs_of_pos s0, div_le_iff₀ s0]
      refine dn'.trans ?_
      nlinarith
    have t2 : |(a - b) / S * ((S - D) / D)| ≤ 6.95 * u := by
      have : |(a - b) / S| ≤ 1 := by rw [abs_div, abs_of_pos S0]; exact (div_le_one S0).2 hm
      rw [abs_mul]
      refine (mul_le_of_le_one_left (abs_nonneg _) this).trans ?_
      rw [abs_div, abs_of_pos s0, div_le_iff₀ s0, abs_sub_comm]
      refine ds'.trans ?_
      nlinarith
    linarith [abs_add_le ((N - (a - b)) / D) ((a - b) / S * ((S - D) / D))]
  have h2 : |N / D| ≤ 1.1 := by
    have : |(a - b) / S| ≤ 1 := by rw [abs_div, abs_of_pos S0]; exact (div_le_one S0).2 hm
    have := abs_add_le (N / D - (a - b) / S) ((a - b) / S)
    rw [sub_add_cancel] at this
    linarith
  have := abs_add_le (Q - N / D) (N / D - (a - b) / S)
  rw [sub_add_sub_cancel] at this
  nlinarith

/-- Fresnel coefficients are accurate to `16 u`. -/
theorem fresnelCore_err (hA : RelErrM A u) (hu : u ≤ 1 / 1000) {P M : Medium} (hP : P.Pos) (hM : M.Pos) (kperp : ℝ) {kn : ℝ}
    (hk : 0 < kn) : ∃ te tm te' tm', fresnelCore P M kperp kn = .ok (te, tm) ∧ A.fresnelCore P M kperp kn = .ok (te', tm') ∧
      |te| ≤ 1 ∧ |tm| ≤ 1 ∧ |te' - te| ≤ 16 * u ∧ |tm' - tm| ≤ 16 * u := by
  have u0 := hA.u0
  have hR := hA.toRelErr
  obtain ⟨te, tm, h, b1, b2, b3, b4, -⟩ := C50_fresnel_bounds hP hM (kperp := kperp) hk
  have rM := root_near hA kperp hk hM
  have rP := root_near hA kperp hk hP
  have t1 := amp_err hR hu ((hR.mul_near (Near.refl hP.2) rM).mono (by linarith)) ((hR.mul_near (Near.refl hM.2) rP).mono (by linarith))
  have t2 := amp_err hR hu ((hR.mul_near (Near.refl hP.1) rM).mono (by linarith)) ((hR.mul_near (Near.refl hM.1) rP).mono (by linarith))
  have hv := h
  unfold fresnelCore at h
  simp only at h
  have p1 := mul_pos hP.2 rM.b0
  have p2 := mul_pos hM.2 rP.b0
  have p3 := mul_pos hP.1 rM.b0
  have p4 := mul_pos hM.1 rP.b0
  rw [cdiv_ok (by positivity), ok_bind, cdiv_ok (by positivity), ok_bind] at h
  simp only [Except.ok.injEq, Prod.mk.injEq] at h
  refine ⟨te, tm, A.div (A.sub (A.mul P.mu (A.root kperp kn M)) (A.mul M.mu (A.root kperp kn P)))
      (A.add (A.mul P.mu (A.root kperp kn M)) (A.mul M.mu (A.root kperp kn P))),
    A.div (A.sub (A.mul P.eps (A.root kperp kn M)) (A.mul M.eps (A.root kperp kn P)))
      (A.add (A.mul P.eps (A.root kperp kn M)) (A.mul M.eps (A.root kperp kn P))), hv, ?_, abs_le.2 ⟨b1.le, b2.le⟩, abs_le.2 ⟨b3.le, b4.le⟩, ?_, ?_⟩
  · unfold FlMie.fresnelCore
    simp only
    rw [t1.1, ok_bind, t2.1, ok_bind]
  · rw [← h.1]; exact t1.2
  · rw [← h.2]; exact t2.2

/-- The product of two amplitudes and the exponential. -/
theorem factor_err (hA : RelErr A.toFlFun u) (hu : u ≤ 1 / 1000) {r s r' s' E E' η : ℝ} (hr : |r| ≤ 1) (hs : |s| ≤ 1)
    (dr : |r' - r| ≤ 16 * u) (ds : |s' - s| ≤ 16 * u) (hη : u ≤ η) (hη1 : 1000 * η ≤ 1) (hE : 0 < E)
    (dE : |E' - E| ≤ 5.7 * η * E) : |A.mul (A.mul r' s') E' - r * s * E| ≤ 41 * η * E := by
  have u0 := hA.u0
  have hr' : |r'| ≤ 1 + 16 * u := by
    have := abs_add_le (r' - r) r
    rw [sub_add_cancel] at this; linarith
  have hs' : |s'| ≤ 1 + 16 * u := by
    have := abs_add_le (s' - s) s
    rw [sub_add_cancel] at this; linarith
  have hrs : |r' * s'| ≤ 1.04 := by
    rw [abs_mul]
    calc |r'| * |s'| ≤ (1 + 16 * u) * (1 + 16 * u) := by gcongr
      _ ≤ 1.04 := by nlinarith
  have d1 : |r' * s' - r * s| ≤ 32.3 * u := by
    rw [show r' * s' - r * s = (r' - r) * s' + r * (s' - s) by ring]
    refine (abs_add_le _ _).trans ?_
    rw [abs_mul, abs_mul]
    have t1 : |r' - r| * |s'| ≤ 16 * u * (1 + 16 * u) := by gcongr
    have t2 : |r| * |s' - s| ≤ 1 * (16 * u) := by gcongr
    nlinarith
  have h1 := hA.mul r' s'
  generalize A.mul r' s' = m at *
  have d2 : |m - r * s| ≤ 33.4 * u := by
    have := abs_add_le (m - r' * s') (r' * s' - r * s)
    rw [sub_add_sub_cancel] at this
    nlinarith
  have hrs1 : |r * s| ≤ 1 := by rw [abs_mul]; exact mul_le_one₀ hr (abs_nonneg _) hs
  have hm : |m| ≤ 1.04 := by
    have := abs_add_le (m - r * s) (r * s)
    rw [sub_add_cancel] at this; linarith
  have h2 := hA.mul m E'
  generalize A.mul m E' = x at *
  have hE' : |E'| ≤ 1.01 * E := by
    have := abs_add_le (E' - E) E
    rw [sub_add_cancel, abs_of_pos hE] at this
    nlinarith
  have d3 : |m * E' - r * s * E| ≤ 1.04 * (5.7 * η * E) + 33.4 * u * E := by
    rw [show m * E' - r * s * E = m * (E' - E) + (m - r * s) * E by ring]
    refine (abs_add_le _ _).trans ?_
    rw [abs_mul, abs_mul, abs_of_pos hE]
    gcongr
  have d4 : u * |m * E'| ≤ u * (1.04 * (1.01 * E)) := by
    rw [abs_mul]; gcongr
  have := abs_add_le (x - m * E') (m * E' - r * s * E)
  rw [sub_add_sub_cancel] at this
  have uE : u * E ≤ η * E := by gcongr
  nlinarith

/-- The exponential of the round trip. -/
theorem roundExp_err (hA : RelErr A.toFlFun u) (hu : u ≤ 1 / 1000) {k k' L : ℝ} (hk : Near (3 * (100 / 99 * u)) k' k) (hL : 0 < L)
    (hτ : 1000 * (u * (1 + 2 * k * L)) ≤ 1) :
    |A.exp (A.mul (A.mul (-2) k') L) - Real.exp (-2 * k * L)| ≤ 5.7 * (u * (1 + 2 * k * L)) * Real.exp (-2 * k * L) := by
  have u0 := hA.u0
  have k0 := hk.b0
  have dk := hk.abs_sub (by linarith)
  have h1 := hA.mul (-2) k'
  generalize A.mul (-2) k' = m at *
  have k1 : |k'| ≤ 1.01 * k := by
    have := abs_add_le (k' - k) k
    rw [sub_add_cancel, abs_of_pos k0] at this
    nlinarith
  have d1 : |m - -2 * k| ≤ 8.4 * u * k := by
    have := abs_add_le (m - -2 * k') (-2 * k' - -2 * k)
    rw [sub_add_sub_cancel] at this
    have e : |-2 * k' - -2 * k| = 2 * |k' - k| := by
      rw [show -2 * k' - -2 * k = -2 * (k' - k) by ring, abs_mul]; norm_num
    have e2 : |-2 * k'| = 2 * |k'| := by rw [abs_mul]; norm_num
    rw [e] at this
    rw [e2] at h1
    have : u * (2 * |k'|) ≤ u * (2 * (1.01 * k)) := by gcongr
    nlinarith [mul_nonneg u0 k0.le]
  have m1 : |m| ≤ 2.01 * k := by
    have := abs_add_le (m - -2 * k) (-2 * k)
    have e2 : |-2 * k| = 2 * k := by rw [abs_mul, abs_of_pos k0]; norm_num
    rw [sub_add_cancel, e2] at this
    nlinarith
  have h2 := hA.mul m L
  generalize A.mul m L = y at *
  have d2 : |y - -2 * k * L| ≤ 5.3 * (u * (2 * k * L)) := by
    have := abs_add_le (y - m * L) (m * L - -2 * k * L)
    rw [sub_add_sub_cancel] at this
    have e : |m * L - -2 * k * L| = |m - -2 * k| * L := by rw [← sub_mul, abs_mul, abs_of_pos hL]
    rw [e] at this
    rw [abs_mul, abs_of_pos hL] at h2
    have t1 : |m - -2 * k| * L ≤ 8.4 * u * k * L := by gcongr
    have t2 : u * (|m| * L) ≤ u * (2.01 * k * L) := by gcongr
    have : 0 ≤ u * k * L := by positivity
    linarith
  have h3 := hA.exp_near d2
  have τ0 : 0 ≤ u * (2 * k * L) := by positivity
  have h4 : Near (5.4 * (u * (1 + 2 * k * L))) (A.exp y) (Real.exp (-2 * k * L)) := h3.mono (by linarith)
  refine (h4.abs_sub (by linarith)).trans ?_
  have : 0 ≤ u * (1 + 2 * k * L) * Real.exp (-2 * k * L) := by positivity
  linarith

/-- `1 - x` as computed. -/
theorem oneSub_near (hA : RelErr A.toFlFun u) {x x' E η : ℝ} (hx : |x| ≤ E) (hE : 0 < E) (hE1 : E < 1) (η0 : 0 ≤ η)
    (hη1 : 1000 * η ≤ 1 - E) (dx : |x' - x| ≤ 41 * η * E) :
    Near (43 * η * (E / (1 - E)) + 100 / 99 * u) (A.sub 1 x') (1 - x) := by
  have s0 : 0 < 1 - E := by linarith
  have hx2 := (abs_le.1 hx).2
  have d0 : 0 < 1 - x := by linarith
  have δ1 : 41 * η * (E / (1 - E)) ≤ 41 / 1000 := by
    have : η / (1 - E) ≤ 1 / 1000 := by rw [div_le_iff₀ s0]; linarith
    have e : 41 * η * (E / (1 - E)) = 41 * (η / (1 - E)) * E := by ring
    rw [e]
    have : 0 ≤ η / (1 - E) := by positivity
    nlinarith
  have δ0 : 0 ≤ 41 * η * (E / (1 - E)) := by positivity
  have h1 : |(1 - x') - (1 - x)| ≤ 41 * η * (E / (1 - E)) * (1 - x) := by
    rw [show (1 - x') - (1 - x) = -(x' - x) by ring, abs_neg]
    refine dx.trans ?_
    have : E ≤ E / (1 - E) * (1 - x) := by
      rw [div_mul_eq_mul_div, le_div_iff₀ s0]
      gcongr
    have e : 41 * η * (E / (1 - E)) * (1 - x) = 41 * η * (E / (1 - E) * (1 - x)) := by ring
    rw [e]
    gcongr
  have h2 := Near.of_rel δ0 (by linarith) d0 h1
  have h3 : Near (43 * η * (E / (1 - E))) (1 - x') (1 - x) := by
    refine h2.mono ?_
    generalize E / (1 - E) = q at *
    rw [div_le_iff₀ (by linarith)]
    have : 0 ≤ η * q := by linarith
    nlinarith
  have := (hA.near h3.a0 (hA.sub 1 x')).trans h3
  rwa [add_comm] at this

theorem log_oneSub_abs {x E : ℝ} (hx : |x| ≤ E) (hE1 : E < 1) : |Real.log (1 - x)| ≤ E / (1 - E) := by
  obtain ⟨h1, h2⟩ := abs_le.1 hx
  have s0 : 0 < 1 - E := by linarith
  have d0 : 0 < 1 - x := by linarith
  have E0 : 0 ≤ E := (abs_nonneg _).trans hx
  have hq : E ≤ E / (1 - E) := by rw [le_div_iff₀ s0]; nlinarith
  rw [abs_le]
  constructor
  · have := Real.one_sub_inv_le_log_of_pos d0
    have e : 1 - (1 - x)⁻¹ = -(x / (1 - x)) := by field_simp; ring
    rw [e] at this
    refine le_trans (neg_le_neg ?_) this
    rw [div_le_div_iff₀ d0 s0]
    nlinarith
  · have := Real.log_le_sub_one_of_pos d0
    linarith

theorem plate_ratio_exp {t : ℝ} (ht : 0 < t) : Real.exp (-t) / (1 - Real.exp (-t)) = 1 / (Real.exp t - 1) := by
  have h1 := Real.add_one_lt_exp ht.ne'
  have h2 : Real.exp (-t) < 1 := by rw [Real.exp_lt_one_iff]; linarith
  rw [div_eq_div_iff (by linarith) (by linarith)]
  have : Real.exp (-t) * Real.exp t = 1 := by rw [← Real.exp_add]; simp
  linear_combination this

/-- The quotient of the pressure, numerator and denominator given. -/
theorem press_quot {u k x E η N D Q : ℝ} (u0 : 0 ≤ u) (k0 : 0 < k) (hx : |x| ≤ E) (hE : 0 < E) (hE1 : E < 1) (hη : u ≤ η)
    (hη1 : 1000 * η ≤ 1 - E) (D0 : 0 < D) (h2 : |Q - N / D| ≤ u * |N / D|) (dN : |N - -k * x| ≤ 46 * η * (k * E))
    (dD : |D - (1 - x)| ≤ 46.4 * (η / (1 - E)) * (1 - x)) : |Q - -k * x / (1 - x)| ≤ 100 * η * k * (E / (1 - E) ^ 2) := by
  have η0 := u0.trans hη
  have s0 : 0 < 1 - E := by linarith
  have hx2 := (abs_le.1 hx).2
  have d0 : 0 < 1 - x := by linarith
  have q1 : η / (1 - E) ≤ 1 / 1000 := by rw [div_le_iff₀ s0]; linarith
  have q0 : 0 ≤ η / (1 - E) := by positivity
  have Dl : 0.953 * (1 - x) ≤ D := by nlinarith [(abs_le.1 dD).1]
  have Dl' : 0.953 * (1 - E) ≤ D := by linarith
  have e : N / D - -k * x / (1 - x) = (N - -k * x) / D + -k * x / (1 - x) * ((1 - x - D) / D) := by
    have := D0.ne'; have := d0.ne'
    field_simp; ring
  have p1 : |-k * x / (1 - x)| ≤ k * (E / (1 - E)) := by
    rw [abs_div, abs_mul, abs_neg, abs_of_pos k0, abs_of_pos d0, mul_div_assoc]
    refine mul_le_mul_of_nonneg_left ?_ k0.le
    exact div_le_div₀ hE.le hx s0 (by linarith)
  have eB : k * (E / (1 - E) ^ 2) = k * (E / (1 - E)) / (1 - E) := by
    field_simp
  set B := k * (E / (1 - E)) with hB
  have B0 : 0 ≤ B := by positivity
  have r1 : |(N - -k * x) / D| ≤ 48.3 * (η * (B / (1 - E)) * (1 - E)) := by
    rw [abs_div, abs_of_pos D0, div_le_iff₀ D0]
    refine dN.trans ?_
    have e1 : k * E = B * (1 - E) := by rw [hB]; field_simp
    have e2 : η * (B / (1 - E)) * (1 - E) = η * B := by field_simp
    rw [e1, e2]
    have : 0 ≤ η * B := by positivity
    nlinarith
  have r2 : |-k * x / (1 - x) * ((1 - x - D) / D)| ≤ 48.8 * (η * (B / (1 - E))) := by
    rw [abs_mul]
    have t : |(1 - x - D) / D| ≤ 48.8 * (η / (1 - E)) := by
      rw [abs_div, abs_of_pos D0, div_le_iff₀ D0, abs_sub_comm]
      refine dD.trans ?_
      nlinarith
    calc |-k * x / (1 - x)| * |(1 - x - D) / D| ≤ B * (48.8 * (η / (1 - E))) := by gcongr
      _ = 48.8 * (η * (B / (1 - E))) := by ring
  have C0 : 0 ≤ η * (B / (1 - E)) := by positivity
  have r3 : |N / D - -k * x / (1 - x)| ≤ 97.1 * (η * (B / (1 - E))) := by
    rw [e]
    refine (abs_add_le _ _).trans ?_
    have : η * (B / (1 - E)) * (1 - E) ≤ η * (B / (1 - E)) := mul_le_of_le_one_right C0 (by linarith)
    linarith
  have BB : B ≤ B / (1 - E) := by rw [le_div_iff₀ s0]; nlinarith
  have r4 : |N / D| ≤ 1.1 * (B / (1 - E)) := by
    have := abs_add_le (N / D - -k * x / (1 - x)) (-k * x / (1 - x))
    rw [sub_add_cancel] at this
    have : 0 ≤ B / (1 - E) := by positivity
    nlinarith
  have r5 : u * |N / D| ≤ η * (1.1 * (B / (1 - E))) := by gcongr
  have := abs_add_le (Q - N / D) (N / D - -k * x / (1 - x))
  rw [sub_add_sub_cancel] at this
  have e3 : 100 * η * k * (E / (1 - E) ^ 2) = 100 * (η * (B / (1 - E))) := by
    rw [← eB]; ring
  rw [e3]
  linarith

/-- The quotient of the pressure. -/
theorem press_err (hA : RelErr A.toFlFun u) {k k' x x' E η : ℝ} (hk : Near (3 * (100 / 99 * u)) k' k) (hx : |x| ≤ E)
    (hE : 0 < E) (hE1 : E < 1) (hη : u ≤ η) (hη1 : 1000 * η ≤ 1 - E) (dx : |x' - x| ≤ 41 * η * E) :
    A.quot (A.mul (-k') x') (A.sub 1 x') = .ok (A.div (A.mul (-k') x') (A.sub 1 x')) ∧
    |A.div (A.mul (-k') x') (A.sub 1 x') - -k * x / (1 - x)| ≤ 100 * η * k * (E / (1 - E) ^ 2) := by
  have u0 := hA.u0
  have η0 := u0.trans hη
  have s0 : 0 < 1 - E := by linarith
  have k0 := hk.b0
  have u1 : u ≤ 1 / 1000 := by linarith
  have dk := hk.abs_sub (by linarith)
  have hd := oneSub_near hA hx hE hE1 η0 hη1 dx
  have hx2 := (abs_le.1 hx).2
  have d0 : 0 < 1 - x := by linarith
  have hq1 : η * (E / (1 - E)) ≤ 1 / 1000 := by
    have : η / (1 - E) ≤ 1 / 1000 := by rw [div_le_iff₀ s0]; linarith
    have e : η * (E / (1 - E)) = (η / (1 - E)) * E := by ring
    rw [e]
    have : 0 ≤ η / (1 - E) := by positivity
    nlinarith
  have dd := hd.abs_sub (by linarith)
  have hw : 43 * η * (E / (1 - E)) + 100 / 99 * u ≤ 44.1 * (η / (1 - E)) := by
    have h1 : η * (E / (1 - E)) ≤ η / (1 - E) := by
      rw [mul_div_assoc']
      exact div_le_div_of_nonneg_right (by nlinarith) s0.le
    have h2 : η ≤ η / (1 - E) := by rw [le_div_iff₀ s0]; nlinarith
    linarith
  have k1 : |k'| ≤ 1.01 * k := by
    have := abs_add_le (k' - k) k
    rw [sub_add_cancel, abs_of_pos k0] at this
    nlinarith
  have x1 : |x'| ≤ 1.05 * E := by
    have := abs_add_le (x' - x) x
    rw [sub_add_cancel] at this
    nlinarith
  have h1 := hA.mul (-k') x'
  generalize A.mul (-k') x' = N at *
  have D0 := hd.a0
  generalize A.sub 1 x' = D at *
  refine ⟨by unfold FlMie.quot; rw [if_neg D0.ne'], ?_⟩
  have h2 := hA.div N D D0.ne'
  generalize A.div N D = Q at *
  have dN : |N - -k * x| ≤ 46 * η * (k * E) := by
    have t := abs_add_le (N - -k' * x') (-k' * x' - -k * x)
    rw [sub_add_sub_cancel] at t
    have e : |-k' * x' - -k * x| ≤ |k'| * |x' - x| + |k' - k| * |x| := by
      rw [show -k' * x' - -k * x = -(k' * (x' - x) + (k' - k) * x) by ring, abs_neg, ← abs_mul, ← abs_mul]
      exact abs_add_le _ _
    have t1 : |k'| * |x' - x| ≤ 1.01 * k * (41 * η * E) := by gcongr
    have t2 : |k' - k| * |x| ≤ 21 / 20 * (3 * (100 / 99 * u)) * k * E := by gcongr
    have t3 : u * |-k' * x'| ≤ u * (1.01 * k * (1.05 * E)) := by
      rw [abs_mul, abs_neg]; gcongr
    have kE : 0 ≤ k * E := by positivity
    have t4 : u * (k * E) ≤ η * (k * E) := by gcongr
    have t5 : 0 ≤ η * (k * E) := by positivity
    linarith
  have dD : |D - (1 - x)| ≤ 46.4 * (η / (1 - E)) * (1 - x) := by
    refine dd.trans ?_
    have : 21 / 20 * (43 * η * (E / (1 - E)) + 100 / 99 * u) ≤ 46.4 * (η / (1 - E)) := by
      have : 0 ≤ η / (1 - E) := by positivity
      linarith
    gcongr
  exact press_quot u0 k0 hx hE hE1 hη hη1 D0 h2 dN dD

end CasSph
