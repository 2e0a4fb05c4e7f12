import Verif.Lemmas.FloatMie
import Verif.Props.FloatBessel

/-! # C123: rounding errors of the Mie coefficients -/

namespace CasSph

open Spec

theorem pi_half_abs (l : ℕ) : |(-1) ^ l * Real.pi * 0.5| ≤ 8 / 5 := by
  have p1 := Real.pi_gt_three
  have p2 := Real.pi_lt_d2
  rw [abs_mul, abs_mul, abs_pow, abs_neg, abs_one, one_pow, abs_of_pos Real.pi_pos, abs_of_pos (by norm_num)]
  linarith

theorem two_pi_abs (l : ℕ) : |(-1) ^ l * 2 / Real.pi| ≤ 8 / 5 := by
  have p1 := Real.pi_gt_three
  rw [abs_div, abs_mul, abs_pow, abs_neg, abs_one, one_pow, abs_of_pos Real.pi_pos, abs_two, div_le_iff₀ Real.pi_pos]
  linarith

theorem prefak_one {A : FlMie} {u : ℝ} (hA : RelErrM A u) (l : ℕ) : |A.mul (A.prefak l) 1 - (-1) ^ l * Real.pi * 0.5| ≤ 9 * u := by
  have h := hA.prefak_abs l
  have h1 := hA.mul (A.prefak l) 1
  rw [mul_one] at h1
  have h2 := pi_half_abs l
  have h3 := abs_add_le (A.prefak l - (-1) ^ l * Real.pi * 0.5) ((-1) ^ l * Real.pi * 0.5)
  rw [sub_add_cancel] at h3
  have h4 := abs_add_le (A.mul (A.prefak l) 1 - A.prefak l) (A.prefak l - (-1) ^ l * Real.pi * 0.5)
  rw [sub_add_sub_cancel] at h4
  nlinarith [hA.u0, hA.u1]

theorem prefakInt_one {A : FlMie} {u : ℝ} (hA : RelErrM A u) (l : ℕ) :
    |A.mul (A.prefakInt l) 1 - (-1) ^ l * 2 / Real.pi| ≤ 9 * u := by
  have h := hA.prefakInt_abs l
  have h1 := hA.mul (A.prefakInt l) 1
  rw [mul_one] at h1
  have h2 := two_pi_abs l
  have h3 := abs_add_le (A.prefakInt l - (-1) ^ l * 2 / Real.pi) ((-1) ^ l * 2 / Real.pi)
  rw [sub_add_cancel] at h3
  have h4 := abs_add_le (A.mul (A.prefakInt l) 1 - A.prefakInt l) (A.prefakInt l - (-1) ^ l * 2 / Real.pi)
  rw [sub_add_sub_cancel] at h4
  nlinarith [hA.u0, hA.u1]

section

variable {A : FlMie} {u : ℝ} {T : BesTable} {l : ℕ} {k r δ Λ : ℝ}

theorem log_arg_nonneg {x : ℝ} (hx : 0 < x) (l : ℕ) : 0 ≤ Real.log (1 + (2 * (l : ℝ) + 1) / x) := Real.log_nonneg (by
  have : 0 ≤ (2 * (l : ℝ) + 1) / x := by positivity
  linarith)

/-- C123: if the computed logarithms of the Bessel functions are right up to `δ` (at the computed arguments), the two
coefficients that `mie` returns are right up to `10 (5δ + 3uΛ + 15u)`, in absolute terms, where `Λ` bounds
`log(1 + (2l+1)/x)` for both arguments; and the scaling exponent up to `3δ + 9u(l+1+x)` and its own rounding. -/
theorem C123_mie (hA : RelErrM A u) (hl : 1 ≤ l) (hk : 0 < k) (hr : 0 < r) {a b : Medium} (ha : a.Pos) (hb : b.Pos)
    (hTi : TableErr T l (A.arg k r a) δ) (hTe : TableErr T l (A.arg k r b) δ)
    (hΛi : Real.log (1 + (2 * l + 1) / (k * r * a.n)) ≤ Λ) (hΛe : Real.log (1 + (2 * l + 1) / (k * r * b.n)) ≤ Λ)
    (hη : 5 * δ + 3 * u * Λ + 15 * u ≤ 1 / 100) :
    ∃ c e, A.mie T l k r a b = .ok c ∧
      mieCore l (k * r) a b (exactBes l (k * r * a.n)) (exactBes l (k * r * b.n)) = .ok e ∧
      |c.TE - e.TE| ≤ 10 * (5 * δ + 3 * u * Λ + 15 * u) ∧ |c.TM - e.TM| ≤ 10 * (5 * δ + 3 * u * Λ + 15 * u) ∧
      |c.ln - e.ln| ≤ 3 * δ + 9 * u * (l + 1 + k * r * b.n) + u * |e.ln| := by
  have hu := hA.u0
  have xa : 0 < k * r * a.n := mul_pos (mul_pos hk hr) (a.n_pos ha)
  have xb : 0 < k * r * b.n := mul_pos (mul_pos hk hr) (b.n_pos hb)
  have hδ : 0 ≤ δ := (abs_nonneg _).trans hTi.i0
  have hΛ0 : 0 ≤ Λ := (log_arg_nonneg xa l).trans hΛi
  have hη0 : 15 * u ≤ mieEta u δ Λ := hA.eta_facts hδ hΛ0
  have hη1 : mieEta u δ Λ ≤ 1 / 100 := hη
  have na := hA.arg_near hk hr ha
  have nb := hA.arg_near hk hr hb
  have i1 := hA.idF_near hl na hTi hΛi hη1
  have e1 := hA.idF_near hl nb hTe hΛe hη1
  have k1 := hA.kdF_near hl nb hTe hΛe
  have hP : |A.prefak l - (-1) ^ l * Real.pi * 0.5| ≤ mieEta u δ Λ / 2 := (hA.prefak_abs l).trans (by linarith)
  obtain ⟨te, hte, bte⟩ := hA.channel hb.2 ha.2 hη0 hη1 i1 e1 k1 (idX_le_two_kdX hl xb) hP (pi_half_abs l)
  obtain ⟨tm, htm, btm⟩ := hA.channel hb.1 ha.1 hη0 hη1 i1 e1 k1 (idX_le_two_kdX hl xb) hP (pi_half_abs l)
  refine ⟨⟨A.mul te (A.prefak l), A.mul tm (A.prefak l), A.sub (T l (A.arg k r b)).i1 (T l (A.arg k r b)).k1⟩, _, ?_, mieCore_ok ha hb (idT_pos (exactBes_ok hl xa)) (kdT_neg hl xb _), ?_, ?_, ?_⟩
  · unfold FlMie.mie
    simp only
    rw [hte, ok_bind, htm, ok_bind]
  · simp only [idT_exact hl xa, idT_exact hl xb, kdT_exact xb]
    exact bte
  · simp only [idT_exact hl xa, idT_exact hl xb, kdT_exact xb]
    exact btm
  · exact hA.ln_err nb hTe.i1 hTe.k1

/-- C123: the same for the reflection inside a cavity, `mie_internal`. -/
theorem C123_internal (hA : RelErrM A u) (hl : 1 ≤ l) (hk : 0 < k) (hr : 0 < r) {a b : Medium} (ha : a.Pos) (hb : b.Pos)
    (hTi : TableErr T l (A.arg k r a) δ) (hTe : TableErr T l (A.arg k r b) δ)
    (hΛi : Real.log (1 + (2 * l + 1) / (k * r * a.n)) ≤ Λ) (hΛe : Real.log (1 + (2 * l + 1) / (k * r * b.n)) ≤ Λ)
    (hη : 5 * δ + 3 * u * Λ + 15 * u ≤ 1 / 100) :
    ∃ c e, A.mieInternal T l k r a b = .ok c ∧
      mieIntCore l (k * r) a b (exactBes l (k * r * a.n)) (exactBes l (k * r * b.n)) = .ok e ∧
      |c.TE - e.TE| ≤ 10 * (5 * δ + 3 * u * Λ + 15 * u) ∧ |c.TM - e.TM| ≤ 10 * (5 * δ + 3 * u * Λ + 15 * u) ∧
      |c.ln - e.ln| ≤ 3 * δ + 9 * u * (l + 1 + k * r * a.n) + u * |e.ln| := by
  have hu := hA.u0
  have xa : 0 < k * r * a.n := mul_pos (mul_pos hk hr) (a.n_pos ha)
  have xb : 0 < k * r * b.n := mul_pos (mul_pos hk hr) (b.n_pos hb)
  have hδ : 0 ≤ δ := (abs_nonneg _).trans hTi.i0
  have hΛ0 : 0 ≤ Λ := (log_arg_nonneg xa l).trans hΛi
  have hη0 : 15 * u ≤ mieEta u δ Λ := hA.eta_facts hδ hΛ0
  have hη1 : mieEta u δ Λ ≤ 1 / 100 := hη
  have na := hA.arg_near hk hr ha
  have nb := hA.arg_near hk hr hb
  have i1 := hA.idF_near hl na hTi hΛi hη1
  have f1 := hA.kdF_near hl na hTi hΛi
  have k1 := hA.kdF_near hl nb hTe hΛe
  have hP : |A.prefakInt l - (-1) ^ l * 2 / Real.pi| ≤ mieEta u δ Λ / 2 := (hA.prefakInt_abs l).trans (by linarith)
  obtain ⟨te, hte, bte⟩ := hA.channelInt hb.2 ha.2 hη0 hη1 i1 f1 k1 (kdX_le_idX hl xa) hP (two_pi_abs l)
  obtain ⟨tm, htm, btm⟩ := hA.channelInt hb.1 ha.1 hη0 hη1 i1 f1 k1 (kdX_le_idX hl xa) hP (two_pi_abs l)
  refine ⟨⟨A.mul te (A.prefakInt l), A.mul tm (A.prefakInt l), A.sub (T l (A.arg k r a)).k1 (T l (A.arg k r a)).i1⟩, _, ?_, mieIntCore_ok ha hb (idT_pos (exactBes_ok hl xa)) (kdT_neg hl xb _), ?_, ?_, ?_⟩
  · unfold FlMie.mieInternal
    simp only
    rw [hte, ok_bind, htm, ok_bind]
  · simp only [idT_exact hl xa, kdT_exact xa, kdT_exact xb]
    exact bte
  · simp only [idT_exact hl xa, kdT_exact xa, kdT_exact xb]
    exact btm
  · exact hA.ln_err' na hTi.i1 hTi.k1

/-- C123: a perfectly conducting sphere: no cancellation, the TM coefficient is right in relative terms. -/
theorem C123_pec (hA : RelErrM A u) (hl : 1 ≤ l) (hk : 0 < k) (hr : 0 < r) {b : Medium} (hb : b.Pos)
    (hT : TableErr T l (A.argPEC k r b) δ) (hΛ : Real.log (1 + (2 * l + 1) / (k * r * b.n)) ≤ Λ)
    (hη : 5 * δ + 3 * u * Λ + 15 * u ≤ 1 / 100) :
    ∃ c e, A.miePEC T l k r b = .ok c ∧ miePECCore l (k * r) b (exactBes l (k * r * b.n)) = .ok e ∧
      |c.TE - e.TE| ≤ 9 * u ∧ |c.TM - e.TM| ≤ 3 * (5 * δ + 3 * u * Λ + 15 * u) * |e.TM| ∧
      |c.ln - e.ln| ≤ 3 * δ + 9 * u * (l + 1 + k * r * b.n) + u * |e.ln| := by
  have hu := hA.u0
  have hu1 := hA.u1
  have xb : 0 < k * r * b.n := mul_pos (mul_pos hk hr) (b.n_pos hb)
  have hδ : 0 ≤ δ := (abs_nonneg _).trans hT.i0
  have hΛ0 : 0 ≤ Λ := (log_arg_nonneg xb l).trans hΛ
  have hη0 : 15 * u ≤ mieEta u δ Λ := hA.eta_facts hδ hΛ0
  have hη1 : mieEta u δ Λ ≤ 1 / 100 := hη
  have nb := hA.argPEC_near hk hr hb
  have i1 := hA.idF_near hl nb hT hΛ hη1
  have k1 := hA.kdF_near hl nb hT hΛ
  have s : |((-1 : ℝ) ^ l)| = 1 := by rw [abs_pow, abs_neg, abs_one, one_pow]
  have s2 : ((-1 : ℝ) ^ l) * (-1) ^ l = 1 := by rw [← mul_pow]; norm_num
  have P := hA.prefak_near l
  have hkd0 : A.kdF l (A.argPEC k r b) (T l (A.argPEC k r b)) ≠ 0 := by have := k1.a0; intro h; rw [h] at this; simp at this
  refine ⟨⟨A.mul (A.prefak l) 1, A.div (A.mul (A.prefak l) (A.idF l (A.argPEC k r b) (T l (A.argPEC k r b)))) (A.kdF l (A.argPEC k r b) (T l (A.argPEC k r b))),
    A.sub (T l (A.argPEC k r b)).i1 (T l (A.argPEC k r b)).k1⟩, _, ?_, miePECCore_ok (kdT_neg hl xb _), ?_, ?_, ?_⟩
  · unfold FlMie.miePEC FlMie.quot
    simp only
    rw [if_neg hkd0, ok_bind]
  · exact prefak_one hA l
  · simp only [idT_exact hl xb, kdT_exact xb]
    obtain ⟨p, hp⟩ : ∃ p, p = A.prefak l := ⟨_, rfl⟩
    obtain ⟨i, hi⟩ : ∃ i, i = A.idF l (A.argPEC k r b) (T l (A.argPEC k r b)) := ⟨_, rfl⟩
    obtain ⟨d, hd⟩ : ∃ d, d = A.kdF l (A.argPEC k r b) (T l (A.argPEC k r b)) := ⟨_, rfl⟩
    obtain ⟨σ, hσ⟩ : ∃ σ : ℝ, σ = (-1) ^ l := ⟨_, rfl⟩
    rw [← hp, ← hσ] at P
    rw [← hi] at i1
    rw [← hd] at k1 hkd0
    rw [← hσ] at s s2
    rw [← hp, ← hi, ← hd, ← hσ]
    have m := hA.near_sign s (hA.mul p i) (by rw [← mul_assoc]; exact mul_pos P.a0 i1.a0)
    rw [← mul_assoc] at m
    have m2 := m.trans (P.mul i1)
    have q0 : 0 < -σ * (A.mul p i / d) := by
      rw [show -σ * (A.mul p i / d) = σ * A.mul p i / -d by field_simp]
      exact div_pos m.a0 k1.a0
    have q := hA.near_sign (s := -σ) (by rw [abs_neg, s]) (hA.div (A.mul p i) d hkd0) q0
    rw [show -σ * (A.mul p i / d) = σ * A.mul p i / -d by field_simp] at q
    have q2 := (q.trans (m2.div k1)).mono (w' := 13 / 5 * mieEta u δ Λ) (by linarith)
    have := q2.abs_sign (Y := σ * Real.pi * 0.5 * idX l (k * r * b.n) / kdX l (k * r * b.n)) (by linarith) (by rw [abs_neg, s]) (by
      have := (kdX_neg hl xb).ne
      field_simp
      linear_combination -idX l (k * r * b.n) * s2)
    refine this.trans ?_
    refine mul_le_mul_of_nonneg_right ?_ (abs_nonneg _)
    unfold mieEta at *
    linarith
  · exact hA.ln_err nb hT.i1 hT.k1

/-- C123: a cavity in a perfect conductor. -/
theorem C123_pec_internal (hA : RelErrM A u) (hl : 1 ≤ l) (hk : 0 < k) (hr : 0 < r) {a : Medium} (ha : a.Pos)
    (hT : TableErr T l (A.argPEC k r a) δ) (hΛ : Real.log (1 + (2 * l + 1) / (k * r * a.n)) ≤ Λ)
    (hη : 5 * δ + 3 * u * Λ + 15 * u ≤ 1 / 100) :
    ∃ c e, A.miePECInternal T l k r a = .ok c ∧ miePECIntCore l (k * r) a (exactBes l (k * r * a.n)) = .ok e ∧
      |c.TE - e.TE| ≤ 9 * u ∧ |c.TM - e.TM| ≤ 3 * (5 * δ + 3 * u * Λ + 15 * u) * |e.TM| ∧
      |c.ln - e.ln| ≤ 3 * δ + 9 * u * (l + 1 + k * r * a.n) + u * |e.ln| := by
  have hu := hA.u0
  have hu1 := hA.u1
  have xa : 0 < k * r * a.n := mul_pos (mul_pos hk hr) (a.n_pos ha)
  have hδ : 0 ≤ δ := (abs_nonneg _).trans hT.i0
  have hΛ0 : 0 ≤ Λ := (log_arg_nonneg xa l).trans hΛ
  have hη0 : 15 * u ≤ mieEta u δ Λ := hA.eta_facts hδ hΛ0
  have hη1 : mieEta u δ Λ ≤ 1 / 100 := hη
  have na := hA.argPEC_near hk hr ha
  have i1 := hA.idF_near hl na hT hΛ hη1
  have k1 := hA.kdF_near hl na hT hΛ
  have s : |((-1 : ℝ) ^ l)| = 1 := by rw [abs_pow, abs_neg, abs_one, one_pow]
  have s2 : ((-1 : ℝ) ^ l) * (-1) ^ l = 1 := by rw [← mul_pow]; norm_num
  have P := hA.prefakInt_near l
  have hid0 := i1.a0.ne'
  refine ⟨⟨A.mul (A.prefakInt l) 1, A.mul (A.prefakInt l) (A.div (A.kdF l (A.argPEC k r a) (T l (A.argPEC k r a))) (A.idF l (A.argPEC k r a) (T l (A.argPEC k r a)))),
    A.sub (T l (A.argPEC k r a)).k1 (T l (A.argPEC k r a)).i1⟩, _, ?_, miePECIntCore_ok (idT_pos (exactBes_ok hl xa)), ?_, ?_, ?_⟩
  · unfold FlMie.miePECInternal FlMie.quot
    simp only
    rw [if_neg hid0, ok_bind]
  · exact prefakInt_one hA l
  · simp only [idT_exact hl xa, kdT_exact xa]
    obtain ⟨p, hp⟩ : ∃ p, p = A.prefakInt l := ⟨_, rfl⟩
    obtain ⟨i, hi⟩ : ∃ i, i = A.idF l (A.argPEC k r a) (T l (A.argPEC k r a)) := ⟨_, rfl⟩
    obtain ⟨d, hd⟩ : ∃ d, d = A.kdF l (A.argPEC k r a) (T l (A.argPEC k r a)) := ⟨_, rfl⟩
    obtain ⟨σ, hσ⟩ : ∃ σ : ℝ, σ = (-1) ^ l := ⟨_, rfl⟩
    rw [← hp, ← hσ] at P
    rw [← hi] at i1 hid0
    rw [← hd] at k1
    rw [← hσ] at s s2
    rw [← hp, ← hi, ← hd, ← hσ]
    have q0 : 0 < -1 * (d / i) := by
      rw [show -1 * (d / i) = -d / i by ring]
      exact div_pos k1.a0 i1.a0
    have q := hA.near_sign (s := -1) (by norm_num) (hA.div d i hid0) q0
    rw [show -1 * (d / i) = -d / i by ring] at q
    have q2 := q.trans (k1.div i1)
    have m0 := mul_pos P.a0 q2.a0
    have m := hA.near_sign (s := -σ) (by rw [abs_neg, s]) (hA.mul p (A.div d i)) (by linarith)
    rw [show -σ * (p * A.div d i) = σ * p * (-1 * A.div d i) by ring] at m
    have q3 := (m.trans (P.mul q2)).mono (w' := 13 / 5 * mieEta u δ Λ) (by linarith)
    have := q3.abs_sign (Y := σ * 2 / Real.pi * (kdX l (k * r * a.n) / idX l (k * r * a.n))) (by linarith) (by rw [abs_neg, s]) (by
      have := (idX_pos hl xa).ne'
      field_simp
      linear_combination -kdX l (k * r * a.n) * s2)
    refine this.trans ?_
    refine mul_le_mul_of_nonneg_right ?_ (abs_nonneg _)
    unfold mieEta at *
    linarith
  · exact hA.ln_err' na hT.i1 hT.k1

end

/-- C123: where the exact coefficient exceeds the bound, the computed one has its sign. -/
theorem C123_sign {c e β : ℝ} (h : |c - e| ≤ β) (hb : β < |e|) : 0 < c * e := by
  have h1 := _root_.abs_le.mp h
  rcases le_total 0 e with he | he
  · rw [abs_of_nonneg he] at hb
    exact mul_pos (by linarith) (lt_of_le_of_ne he (by rintro rfl; linarith [abs_nonneg (c - 0)]))
  · rw [abs_of_nonpos he] at hb
    exact mul_pos_of_neg_of_neg (by linarith) (lt_of_le_of_ne he (by rintro rfl; linarith [abs_nonneg (c - 0)]))

/-! ## The sign may be lost -/

theorem idX_le_sq {l : ℕ} (hl : 1 ≤ l) {x : ℝ} (hx : 0 < x) : idX l x ≤ l + 1 + x ^ 2 / (2 * l + 3) := by
  obtain ⟨c, rfl⟩ := Nat.exists_eq_add_of_le' hl
  have h0 := sphI_pos (c + 1) hx
  have h1 := sphI_pos (c + 1 + 1) hx
  have h2 := sphI_pos (c + 1 + 2) hx
  have r1 := sphI_rec' c x
  have r2 := sphI_rec' (c + 1) x
  unfold idX
  rw [Nat.add_sub_cancel]
  have e : x * (sphI c x / sphI (c + 1) x) ≤ 2 * c + 3 + x ^ 2 / (2 * (c + 1 : ℕ) + 3) := by
    rw [← mul_div_assoc, div_le_iff₀ h0]
    have : sphI (c + 2) x ≤ x * sphI (c + 1) x / (2 * (c + 1 : ℕ) + 3) := by
      rw [le_div_iff₀ (by positivity)]
      have := mul_pos hx h2
      have e : c + 1 + 1 = c + 2 := rfl
      rw [e] at r2
      nlinarith
    have h3 := mul_le_mul_of_nonneg_left this hx.le
    have e3 : x * (x * sphI (c + 1) x / (2 * (c + 1 : ℕ) + 3)) = x ^ 2 / (2 * (c + 1 : ℕ) + 3) * sphI (c + 1) x := by ring
    rw [e3] at h3
    linarith
  push_cast at *
  linarith

/-- Everything is exact but the exponential: rounded up from `s` on, rounded down below. -/
noncomputable def stepFun (u s : ℝ) : FlMie where
  pi := Real.pi
  tenth := 1 / 10
  add := (· + ·)
  sub := (· - ·)
  mul := (· * ·)
  div := (· / ·)
  pow := (· ^ ·)
  log := Real.log
  exp a := open Classical in if s ≤ a then Real.exp a * (1 + u) else Real.exp a * (1 - u)
  sqrt := Real.sqrt

theorem stepFun_relErr {u s : ℝ} (h0 : 0 ≤ u) (h1 : u ≤ 1 / 100) : RelErrM (stepFun u s) u where
  u0 := h0
  u1 := h1
  pi := by simp only [stepFun, sub_self, abs_zero]; have := Real.pi_pos; positivity
  tenth := by simp only [stepFun, sub_self, abs_zero]; positivity
  add a b := by simp only [stepFun, sub_self, abs_zero]; positivity
  sub a b := by simp only [stepFun, sub_self, abs_zero]; positivity
  mul a b := by simp only [stepFun, sub_self, abs_zero]; positivity
  div a b _ := by simp only [stepFun, sub_self, abs_zero]; positivity
  pow a n := by simp only [stepFun, sub_self, abs_zero]; positivity
  log a _ := by simp only [stepFun, sub_self, abs_zero]; positivity
  exp a := by
    have := Real.exp_pos a
    simp only [stepFun]
    split_ifs
    · rw [show Real.exp a * (1 + u) - Real.exp a = u * Real.exp a by ring, abs_of_nonneg (by positivity)]
    · rw [show Real.exp a * (1 - u) - Real.exp a = -(u * Real.exp a) by ring, abs_neg, abs_of_nonneg (by positivity)]
  sqrt a _ := by simp only [stepFun, sub_self, abs_zero]; positivity

/-- C123: no relative error: for small arguments the two terms of the numerator of the TE coefficient of a non-magnetic
sphere agree up to the rounding errors; even with the exact Bessel functions an arithmetic with relative errors of at
most `u` may return a coefficient of the wrong sign. -/
theorem C123_sign_lost (u k : ℝ) (l : ℕ) (h0 : 0 < u) (h1 : u ≤ 1 / 100) (hl : 1 ≤ l) (hk : 0 < k)
    (hku : 4 * k ^ 2 ≤ (2 * l + 3) * (4 * l + 2) * u) :
    ∃ A, RelErrM A u ∧ ∃ c e, A.mie exactBes l k 1 ⟨4, 1⟩ ⟨1, 1⟩ = .ok c ∧
      mieCore l (k * 1) ⟨4, 1⟩ ⟨1, 1⟩ (exactBes l (k * 1 * Medium.n ⟨4, 1⟩)) (exactBes l (k * 1 * Medium.n ⟨1, 1⟩)) = .ok e ∧
      c.TE * e.TE < 0 := by
  have hl' : (1 : ℝ) ≤ l := by exact_mod_cast hl
  have n4 : Medium.n ⟨4, 1⟩ = 2 := by
    unfold Medium.n; rw [show (4 : ℝ) * 1 = 2 ^ 2 by norm_num]; exact Real.sqrt_sq (by norm_num)
  have n1 : Medium.n ⟨1, 1⟩ = 1 := by unfold Medium.n; simp
  have hk2 : 0 < k * 1 * 2 := by linarith
  have hk1 : 0 < k * 1 * 1 := by linarith
  obtain ⟨I, hI⟩ : ∃ I, I = idX l (k * 1 * 2) := ⟨_, rfl⟩
  obtain ⟨E, hE⟩ : ∃ E, E = idX l (k * 1 * 1) := ⟨_, rfl⟩
  have I1 : I ≤ l + 1 + (4 * l + 2) * u := by
    have := idX_le_sq hl hk2
    rw [← hI] at this
    have : (k * 1 * 2) ^ 2 / (2 * l + 3) ≤ (4 * l + 2) * u := by rw [div_le_iff₀ (by positivity)]; nlinarith
    linarith
  have E1 : (l : ℝ) + 1 < E := by rw [hE]; exact idX_gt hl hk1
  have I2 : E < I := by rw [hE, hI]; exact idX_strictMono hl hk1 (by linarith)
  -- the two exponents
  have ex : ∀ x : ℝ, 0 < x → Real.exp (Real.log (sphI (l - 1) x) - Real.log (sphI l x)) = (idX l x + l) / x := by
    intro x hx
    rw [Real.exp_sub, Real.exp_log (sphI_pos _ hx), Real.exp_log (sphI_pos _ hx)]
    unfold idX
    have := hx.ne'
    field_simp
    ring
  obtain ⟨si, hsi⟩ : ∃ s, s = Real.log (sphI (l - 1) (k * 1 * 2)) - Real.log (sphI l (k * 1 * 2)) := ⟨_, rfl⟩
  obtain ⟨se, hse⟩ : ∃ s, s = Real.log (sphI (l - 1) (k * 1 * 1)) - Real.log (sphI l (k * 1 * 1)) := ⟨_, rfl⟩
  have ei := ex _ hk2
  have ee := ex _ hk1
  rw [← hsi, ← hI] at ei
  rw [← hse, ← hE] at ee
  have hlt : si < se := by
    rw [← Real.exp_lt_exp, ei, ee, div_lt_div_iff₀ hk2 hk1]
    have : I + l < 2 * (E + l) := by nlinarith
    nlinarith
  have xi : (stepFun u se).arg k 1 ⟨4, 1⟩ = k * 1 * 2 := by rw [← n4]; rfl
  have xe : (stepFun u se).arg k 1 ⟨1, 1⟩ = k * 1 * 1 := by
    have : k * 1 * 1 = k * 1 * Medium.n ⟨1, 1⟩ := by rw [n1]
    rw [this]; rfl
  have fi : (stepFun u se).idF l (k * 1 * 2) (exactBes l (k * 1 * 2)) = I - u * (I + l) := by
    have : (stepFun u se).idF l (k * 1 * 2) (exactBes l (k * 1 * 2)) = -l + k * 1 * 2 * (stepFun u se).exp si := by rw [hsi]; rfl
    rw [this]
    have : (stepFun u se).exp si = Real.exp si * (1 - u) := if_neg (not_le.mpr hlt)
    rw [this, ei]
    field_simp
    ring
  have fe : (stepFun u se).idF l (k * 1 * 1) (exactBes l (k * 1 * 1)) = E + u * (E + l) := by
    have : (stepFun u se).idF l (k * 1 * 1) (exactBes l (k * 1 * 1)) = -l + k * 1 * 1 * (stepFun u se).exp se := by rw [hse]; rfl
    rw [this]
    have : (stepFun u se).exp se = Real.exp se * (1 + u) := if_pos le_rfl
    rw [this, ee]
    field_simp
    ring
  have fk : (stepFun u se).kdF l (k * 1 * 1) (exactBes l (k * 1 * 1)) < 0 := by
    have : ∀ s, 0 < (stepFun u se).exp s := by
      intro s
      have := Real.exp_pos s
      simp only [stepFun]
      split_ifs
      · positivity
      · exact mul_pos this (by linarith)
    have h := mul_pos hk1 (this (Real.log (sphK (l - 1) (k * 1 * 1)) - Real.log (sphK l (k * 1 * 1))))
    have e : (stepFun u se).kdF l (k * 1 * 1) (exactBes l (k * 1 * 1)) =
      -l - k * 1 * 1 * (stepFun u se).exp (Real.log (sphK (l - 1) (k * 1 * 1)) - Real.log (sphK l (k * 1 * 1))) := rfl
    rw [e]
    linarith
  obtain ⟨d, hd⟩ : ∃ d, d = (stepFun u se).kdF l (k * 1 * 1) (exactBes l (k * 1 * 1)) := ⟨_, rfl⟩
  rw [← hd] at fk
  have hI0 : 0 < I - u * (I + l) := by nlinarith
  refine ⟨stepFun u se, stepFun_relErr h0.le h1,
    ⟨(1 * (I - u * (I + l)) - 1 * (E + u * (E + l))) / (1 * (I - u * (I + l)) - 1 * d) * ((-1) ^ l * Real.pi * 0.5),
     (1 * (I - u * (I + l)) - 4 * (E + u * (E + l))) / (1 * (I - u * (I + l)) - 4 * d) * ((-1) ^ l * Real.pi * 0.5),
      (exactBes l (k * 1 * 1)).i1 - (exactBes l (k * 1 * 1)).k1⟩, _, ?_,
    mieCore_ok (by constructor <;> norm_num) (by constructor <;> norm_num) (idT_pos (exactBes_ok hl (by rw [n4]; exact hk2)))
      (kdT_neg hl (by rw [n1]; exact hk1) _), ?_⟩
  · unfold FlMie.mie FlMie.quot
    simp only
    rw [xi, xe, fi, fe, ← hd]
    have q1 : (stepFun u se).sub ((stepFun u se).mul 1 (I - u * (I + l))) ((stepFun u se).mul 1 d) ≠ 0 := by
      have : (stepFun u se).sub ((stepFun u se).mul 1 (I - u * (I + l))) ((stepFun u se).mul 1 d) = 1 * (I - u * (I + l)) - 1 * d := rfl
      rw [this]; linarith
    have q2 : (stepFun u se).sub ((stepFun u se).mul 1 (I - u * (I + l))) ((stepFun u se).mul 4 d) ≠ 0 := by
      have : (stepFun u se).sub ((stepFun u se).mul 1 (I - u * (I + l))) ((stepFun u se).mul 4 d) = 1 * (I - u * (I + l)) - 4 * d := rfl
      rw [this]; linarith
    rw [if_neg q1, ok_bind, if_neg q2, ok_bind]
    rfl
  · simp only [n4, n1, idT_exact hl hk2, idT_exact hl hk1, kdT_exact hk1, ← hI, ← hE]
    have K0 := kdX_neg hl hk1
    generalize kdX l (k * 1 * 1) = K at *
    have s2 : ((-1 : ℝ) ^ l) * (-1) ^ l = 1 := by rw [← mul_pow]; norm_num
    have hp : 0 < ((-1) ^ l * Real.pi * 0.5) * ((-1) ^ l * Real.pi * 0.5) := by
      rw [show ((-1) ^ l * Real.pi * 0.5) * ((-1) ^ l * Real.pi * 0.5) = ((-1) ^ l * (-1) ^ l) * (Real.pi * Real.pi * 0.25) by ring, s2]
      have := Real.pi_pos
      positivity
    rw [mul_mul_mul_comm]
    refine mul_neg_of_neg_of_pos (mul_neg_of_neg_of_pos ?_ ?_) hp
    · refine div_neg_of_neg_of_pos ?_ (by linarith)
      nlinarith
    · exact div_pos (by linarith) (by linarith)

/-- In double precision, dipoles, `k r = 1e-8`. -/
example : ∃ A, RelErrM A (2 ^ (-52 : ℤ)) ∧ ∃ c e, A.mie exactBes 1 1e-8 1 ⟨4, 1⟩ ⟨1, 1⟩ = .ok c ∧
      mieCore 1 (1e-8 * 1) ⟨4, 1⟩ ⟨1, 1⟩ (exactBes 1 (1e-8 * 1 * Medium.n ⟨4, 1⟩)) (exactBes 1 (1e-8 * 1 * Medium.n ⟨1, 1⟩)) = .ok e ∧
      c.TE * e.TE < 0 :=
  C123_sign_lost _ _ 1 (by positivity) (by norm_num) le_rfl (by norm_num) (by norm_num)

/-! ## Double precision -/

theorem trunc_small {x : ℝ} (hx : 0 < x) (hx2 : x ≤ 10) {l N : ℕ} (hl : 2 ≤ l) (hN : N = 80 ∨ N = 140) :
    1 / ((∏ j ∈ Finset.Icc 2 N, ((2 * (l : ℝ) + 1 + 2 * j) / x) ^ 2) * ((2 * l + 1 + 2 * (N + 1 : ℕ)) / x)) ≤ 1e-10 := by
  have hl' : (2 : ℝ) ≤ l := by exact_mod_cast hl
  have f : ∀ j : ℕ, (5 + 2 * (j : ℝ)) / 10 ≤ (2 * (l : ℝ) + 1 + 2 * j) / x := by
    intro j
    have : (0 : ℝ) ≤ j := Nat.cast_nonneg j
    rw [div_le_div_iff₀ (by norm_num) hx]
    nlinarith
  have P : ∀ M : ℕ, (81 / 100 : ℝ) ^ 21 * 25 ^ M ≤ ∏ j ∈ Finset.Icc 2 (22 + M), ((2 * (l : ℝ) + 1 + 2 * j) / x) ^ 2 := by
    intro M
    induction M with
    | zero =>
      have : (81 / 100 : ℝ) ^ 21 = ∏ _j ∈ Finset.Icc 2 22, (81 / 100 : ℝ) := by
        rw [Finset.prod_const]; rfl
      rw [pow_zero, mul_one, add_zero, this]
      refine Finset.prod_le_prod (fun _ _ => by norm_num) ?_
      intro j hj
      have hj' : (2 : ℝ) ≤ j := by exact_mod_cast (Finset.mem_Icc.mp hj).1
      have := f j
      have h9 : 9 / 10 ≤ (2 * (l : ℝ) + 1 + 2 * j) / x := by linarith
      nlinarith
    | succ M ih =>
      rw [← Nat.add_assoc, Finset.prod_Icc_succ_top (by omega), pow_succ (25 : ℝ), ← mul_assoc]
      have := f (22 + M + 1)
      have h5 : 5 ≤ (2 * (l : ℝ) + 1 + 2 * (22 + M + 1 : ℕ)) / x := by
        push_cast at *
        have : (0 : ℝ) ≤ M := Nat.cast_nonneg M
        linarith
      exact mul_le_mul ih (by nlinarith) (by norm_num) (Finset.prod_nonneg fun _ _ => sq_nonneg _)
  have P2 : (1e10 : ℝ) ≤ ∏ j ∈ Finset.Icc 2 N, ((2 * (l : ℝ) + 1 + 2 * j) / x) ^ 2 := by
    rcases hN with rfl | rfl
    · exact le_trans (by norm_num) (P 58)
    · exact le_trans (by norm_num) (P 118)
  have L := f (N + 1)
  have L1 : 1 ≤ (2 * (l : ℝ) + 1 + 2 * (N + 1 : ℕ)) / x := by
    have : (80 : ℝ) ≤ N := by exact_mod_cast (show 80 ≤ N by omega)
    push_cast at *
    linarith
  have : (1e10 : ℝ) * 1 ≤ (∏ j ∈ Finset.Icc 2 N, ((2 * (l : ℝ) + 1 + 2 * j) / x) ^ 2) * ((2 * l + 1 + 2 * (N + 1 : ℕ)) / x) :=
    mul_le_mul P2 L1 (by norm_num) (by linarith)
  refine (one_div_le_one_div_of_le (by norm_num) this).trans (by norm_num)

theorem log_ten {x : ℝ} (h1 : 0.1 ≤ x) (h2 : x ≤ 10) : |Real.log x| ≤ 3 := by
  have hx : 0 < x := lt_of_lt_of_le (by norm_num) h1
  have e : Real.log 10 ≤ 3 := by
    have a : Real.log 10 ≤ Real.log (2 ^ 4) := Real.log_le_log (by norm_num) (by norm_num)
    rw [Real.log_pow] at a
    push_cast at a
    linarith [Real.log_two_lt_d9]
  rw [abs_le]
  constructor
  · have := Real.log_le_log (by norm_num) h1
    rw [show (0.1 : ℝ) = 10⁻¹ by norm_num, Real.log_inv] at this
    linarith
  · exact (Real.log_le_log hx h2).trans e

theorem log_ten_term {x : ℝ} (h1 : 0.1 ≤ x) {m : ℝ} (h0 : 0 ≤ m) (hm : m ≤ 101) : Real.log (1 + 2 * m / x) ≤ 8 := by
  have hx : 0 < x := lt_of_lt_of_le (by norm_num) h1
  have a : 1 + 2 * m / x ≤ 2 ^ 11 := by
    have : 2 * m / x ≤ 2 * 101 / 0.1 := by gcongr
    norm_num at this ⊢; linarith
  have b := Real.log_le_log (by positivity) a
  rw [Real.log_pow] at b
  push_cast at b
  linarith [Real.log_two_lt_d9]

theorem tableErr_double {A : FlFun} (hA : RelErr A (2 ^ (-52 : ℤ))) {T : BesTable} {l : ℕ} {x : ℝ} (hl1 : 1 ≤ l)
    (h : FromLniknu A T l x) : TableErr T l x 1e-9 := by
  obtain ⟨xs, n, i, li, lk, hi, hxs, rfl, hl, hn, hk, ei0, ei1, ek0, ek1⟩ := h
  have hs : SmallFirst xs := ⟨[], xs, rfl, by simp, fun y hy => (show (1e-3 : ℝ) ≤ 0.1 by norm_num).trans (hxs y hy).1⟩
  have hx : ∀ y ∈ xs, 0 < y := fun y hy => lt_of_lt_of_le (by norm_num) (hxs y hy).1
  obtain ⟨x1, x2⟩ := hxs _ (List.getElem_mem hi)
  have x0 := hx _ (List.getElem_mem hi)
  have hL := log_ten x1 x2
  have u52 : (2 : ℝ) ^ (-52 : ℤ) = 1 / 4503599627370496 := by norm_num
  have K : ∀ m v, m ≤ l → at2 lk i m = some v → |v - Real.log (sphK m xs[i])| ≤ 1e-9 := by
    intro m v hm hv
    have m0 : (0 : ℝ) ≤ m := Nat.cast_nonneg m
    have m100 : (m : ℝ) ≤ 100 := by exact_mod_cast (show m ≤ 100 by omega)
    obtain ⟨v', hv', b⟩ := C122_second A _ hA xs hs hx n li lk hk i m hi (hm.trans hl) (by rw [u52]; linarith)
    rw [hv, Option.some.injEq] at hv'
    subst hv'
    refine b.trans ?_
    have t := log_ten_term x1 m0 (by linarith)
    have t0 := log_term_nonneg x0 m
    have t2 : m * Real.log (1 + 2 * m / xs[i]) ≤ 100 * 8 := by
      refine mul_le_mul m100 t ?_ (by norm_num)
      exact Real.log_nonneg (by have : 0 ≤ 2 * (m : ℝ) / xs[i] := by positivity
                                linarith)
    have s : 4 + 2 * |Real.log xs[i]| + xs[i] + m * Real.log (1 + 2 * m / xs[i]) ≤ 820 := by linarith
    have s0 : 0 ≤ 4 + 2 * |Real.log xs[i]| + xs[i] + m * Real.log (1 + 2 * m / xs[i]) := by
      have := abs_nonneg (Real.log xs[i]); linarith
    rw [u52]
    calc _ ≤ 8 * (100 + 1) * (1 / 4503599627370496 : ℝ) * 820 := by gcongr
      _ ≤ _ := by norm_num
  have I : ∀ m v, m ≤ l → at2 li i m = some v → |v - Real.log (sphI m xs[i])| ≤ 1e-9 := by
    intro m v hm hv
    have c3 : 1 / xs[i] ^ 3 ≤ 1000 := by
      rw [div_le_iff₀ (by positivity)]
      have : (0.1 : ℝ) ^ 3 ≤ xs[i] ^ 3 := pow_le_pow_left₀ (by norm_num) x1 3
      norm_num at this
      linarith
    have c1 : 1 / xs[i] ≤ 10 := by rw [div_le_iff₀ x0]; norm_num at x1; linarith
    have A01 := C122_orders01_large A _ hA xs hs n li lk hk i hi ((show (1e-3 : ℝ) ≤ 0.1 by norm_num).trans x1)
      (by rw [u52]; linarith) (by rw [u52]; linarith)
    match m with
    | 0 =>
      obtain ⟨v', hv', b⟩ := A01.1
      rw [hv, Option.some.injEq] at hv'
      subst hv'
      refine b.trans ?_
      rw [u52, show 3 * (1 / 4503599627370496 : ℝ) / xs[i] = 3 * (1 / 4503599627370496 : ℝ) * (1 / xs[i]) by ring]
      norm_num at *
      linarith
    | 1 =>
      obtain ⟨v', hv', b⟩ := A01.2 (by omega)
      rw [hv, Option.some.injEq] at hv'
      subst hv'
      refine b.trans ?_
      rw [u52]
      norm_num at *
      linarith
    | m + 2 =>
      have m0 : (0 : ℝ) ≤ (m + 2 : ℕ) := Nat.cast_nonneg _
      have m100 : ((m + 2 : ℕ) : ℝ) ≤ 100 := by exact_mod_cast (show m + 2 ≤ 100 by omega)
      obtain ⟨v', N, hN, hv', b⟩ := C122_orders A _ hA xs hs hx n li lk hk i (m + 2) hi (by omega) (hm.trans hl)
        (by rw [u52]; linarith)
      rw [hv, Option.some.injEq] at hv'
      subst hv'
      have tr := trunc_small x0 x2 (show 2 ≤ m + 2 by omega) hN
      generalize ((m + 2 : ℕ) : ℝ) = y at *
      have t := log_ten_term x1 (m := y + 1) (by linarith) (by linarith)
      have tn : 0 ≤ Real.log (1 + 2 * (y + 1) / xs[i]) :=
        Real.log_nonneg (by have : 0 ≤ 2 * (y + 1) / xs[i] := by positivity
                            linarith)
      have t2 : (y + 1) * Real.log (1 + 2 * (y + 1) / xs[i]) ≤ 101 * 8 := mul_le_mul (by linarith) t tn (by norm_num)
      have t3 : 0 ≤ (y + 1) * Real.log (1 + 2 * (y + 1) / xs[i]) := by positivity
      have s : 4 + 2 * |Real.log xs[i]| + xs[i] + (y + 1) * Real.log (1 + 2 * (y + 1) / xs[i]) ≤ 828 := by linarith
      have s0 : 0 ≤ 4 + 2 * |Real.log xs[i]| + xs[i] + (y + 1) * Real.log (1 + 2 * (y + 1) / xs[i]) := by
        have := abs_nonneg (Real.log xs[i]); linarith
      refine b.trans ?_
      rw [u52]
      calc _ ≤ 30 * (100 + 2) * (1 / 4503599627370496 : ℝ) * 828 + 420 * (1 / 4503599627370496) + 1e-10 := by gcongr
        _ ≤ _ := by norm_num
  exact ⟨I _ _ (by omega) ei0, I _ _ le_rfl ei1, K _ _ (by omega) ek0, K _ _ le_rfl ek1⟩

theorem log_near_ten {x y : ℝ} {u : ℝ} {l : ℕ} (hl : l ≤ 100) (hu : 4 * u ≤ 1 / 20) (h : Near (4 * u) x y) (hx : 0.1 ≤ x) :
    Real.log (1 + (2 * l + 1) / y) ≤ 9 := by
  have hy := h.b0
  have hl' : (l : ℝ) ≤ 100 := by exact_mod_cast hl
  have e := h.abs_sub hu
  have y1 : 1 / 11 ≤ y := by
    have := (_root_.abs_le.mp e).2
    norm_num at hx
    nlinarith
  have a : 1 + (2 * l + 1) / y ≤ 2 ^ 12 := by
    have : (2 * (l : ℝ) + 1) / y ≤ (2 * 100 + 1) / (1 / 11) := by gcongr
    norm_num at this ⊢; linarith
  have b := Real.log_le_log (by positivity) a
  rw [Real.log_pow] at b
  push_cast at b
  linarith [Real.log_two_lt_d9]

/-- C123 in double precision, with the logarithms that `lniknu` returns: for arguments between 0.1 and 10 and `l` up to 100
the coefficients are right up to 1e-7. -/
theorem C123_double (A : FlMie) (hA : RelErrM A (2 ^ (-52 : ℤ))) (T : BesTable) (l : ℕ) (k r : ℝ) (hl : 1 ≤ l) (hl2 : l ≤ 100)
    (hk : 0 < k) (hr : 0 < r) (a b : Medium) (ha : a.Pos) (hb : b.Pos) (hTi : FromLniknu A.toFlFun T l (A.arg k r a))
    (hTe : FromLniknu A.toFlFun T l (A.arg k r b)) :
    (∃ c e, A.mie T l k r a b = .ok c ∧
      mieCore l (k * r) a b (exactBes l (k * r * a.n)) (exactBes l (k * r * b.n)) = .ok e ∧
      |c.TE - e.TE| ≤ 1e-7 ∧ |c.TM - e.TM| ≤ 1e-7) ∧
    (∃ c e, A.mieInternal T l k r a b = .ok c ∧
      mieIntCore l (k * r) a b (exactBes l (k * r * a.n)) (exactBes l (k * r * b.n)) = .ok e ∧
      |c.TE - e.TE| ≤ 1e-7 ∧ |c.TM - e.TM| ≤ 1e-7) := by
  have u52 : (2 : ℝ) ^ (-52 : ℤ) = 1 / 4503599627370496 := by norm_num
  have hu : 4 * (2 : ℝ) ^ (-52 : ℤ) ≤ 1 / 20 := by rw [u52]; norm_num
  have ti := tableErr_double hA.toRelErr hl hTi
  have te := tableErr_double hA.toRelErr hl hTe
  have ci := log_near_ten hl2 hu (hA.arg_near hk hr ha) hTi.range.1
  have ce := log_near_ten hl2 hu (hA.arg_near hk hr hb) hTe.range.1
  have hη : 5 * (1e-9 : ℝ) + 3 * (2 : ℝ) ^ (-52 : ℤ) * 9 + 15 * (2 : ℝ) ^ (-52 : ℤ) ≤ 1e-8 := by rw [u52]; norm_num
  have hη2 : (1e-8 : ℝ) ≤ 1 / 100 := by norm_num
  have h3 : 10 * (1e-8 : ℝ) = 1e-7 := by norm_num
  constructor
  · obtain ⟨c, e, h1, h2, b1, b2, -⟩ := C123_mie hA hl hk hr ha hb ti te ci ce (hη.trans hη2)
    exact ⟨c, e, h1, h2, b1.trans (by linarith), b2.trans (by linarith)⟩
  · obtain ⟨c, e, h1, h2, b1, b2, -⟩ := C123_internal hA hl hk hr ha hb ti te ci ce (hη.trans hη2)
    exact ⟨c, e, h1, h2, b1.trans (by linarith), b2.trans (by linarith)⟩

/-- Operations that round the exact result. -/
noncomputable def roundMie (rnd : ℝ → ℝ) : FlMie := { roundFun rnd with sqrt := fun a => rnd (Real.sqrt a) }

theorem roundMie_relErr {rnd : ℝ → ℝ} {u : ℝ} (h0 : 0 ≤ u) (h1 : u ≤ 1 / 100) (h : ∀ x, |rnd x - x| ≤ u * |x|) :
    RelErrM (roundMie rnd) u :=
  { roundFun_relErr h0 h1 h with
    sqrt := fun a _ => by have := h (Real.sqrt a); rwa [abs_of_nonneg (Real.sqrt_nonneg a)] at this }

/-- The entries that `lniknu` returns for the array with the single element `x`. -/
noncomputable def lniknuTable (A : FlFun) : BesTable := fun l x =>
  ⟨A.ordI (fnuTerms x) (A.ord0 true) (A.ord1 true) x (l - 1), A.ordI (fnuTerms x) (A.ord0 true) (A.ord1 true) x l,
    A.lnk x (l - 1), A.lnk x l⟩

theorem lniknuTable_from (A : FlFun) {l : ℕ} {x : ℝ} (hl : l ≤ 100) (h1 : 0.1 ≤ x) (h2 : x ≤ 10) :
    FromLniknu A (lniknuTable A) l x :=
  ⟨[x], l, 0, _, _, by simp, by intro y hy; simp at hy; rw [hy]; exact ⟨h1, h2⟩, rfl, le_rfl, hl,
    A.lniknu_maps (xs := [] ++ [x]) rfl l _ _ (A.i01_smallFirst (s := []) (g := [x]) (by simp) (by
      intro y hy; simp at hy; rw [hy]; exact (show (1e-3 : ℝ) ≤ 0.1 by norm_num).trans h1)),
    at2_map (xs := [x]) (i := 0) (by simp) (by omega), at2_map (xs := [x]) (i := 0) (by simp) le_rfl,
    at2_map (xs := [x]) (i := 0) (by simp) (by omega), at2_map (xs := [x]) (i := 0) (by simp) le_rfl⟩

/-- Doubles rounded towards minus infinity, a sphere of permittivity 4 in vacuum with `k r = 1`, `l = 7`. -/
example : RelErrM (roundMie (Spec.roundDown 53)) (2 ^ (-52 : ℤ)) ∧
    FromLniknu (roundMie (Spec.roundDown 53)).toFlFun (lniknuTable (roundMie (Spec.roundDown 53)).toFlFun) 7
      ((roundMie (Spec.roundDown 53)).arg 1 1 ⟨4, 1⟩) ∧
    FromLniknu (roundMie (Spec.roundDown 53)).toFlFun (lniknuTable (roundMie (Spec.roundDown 53)).toFlFun) 7
      ((roundMie (Spec.roundDown 53)).arg 1 1 ⟨1, 1⟩) := by
  have hA : RelErrM (roundMie (Spec.roundDown 53)) (2 ^ (-52 : ℤ)) :=
    roundMie_relErr (by positivity) (by norm_num) roundDown_double.err
  have n4 : Medium.n ⟨4, 1⟩ = 2 := by
    unfold Medium.n; rw [show (4 : ℝ) * 1 = 2 ^ 2 by norm_num]; exact Real.sqrt_sq (by norm_num)
  have n1 : Medium.n ⟨1, 1⟩ = 1 := by unfold Medium.n; simp
  have hu : 4 * (2 : ℝ) ^ (-52 : ℤ) ≤ 1 / 20 := by norm_num
  have b : ∀ a : Medium, a.Pos → 1 ≤ a.n → a.n ≤ 2 →
      0.1 ≤ (roundMie (Spec.roundDown 53)).arg 1 1 a ∧ (roundMie (Spec.roundDown 53)).arg 1 1 a ≤ 10 := by
    intro a ha h1 h2
    have := (hA.arg_near one_pos one_pos ha).abs_sub hu
    rw [_root_.abs_le, one_mul, one_mul] at this
    norm_num at this ⊢
    constructor <;> nlinarith
  obtain ⟨p1, p2⟩ := b ⟨4, 1⟩ (by constructor <;> norm_num) (by rw [n4]; norm_num) (by rw [n4])
  obtain ⟨q1, q2⟩ := b ⟨1, 1⟩ (by constructor <;> norm_num) (by rw [n1]) (by rw [n1]; norm_num)
  exact ⟨hA, lniknuTable_from _ (by norm_num) p1 p2, lniknuTable_from _ (by norm_num) q1 q2⟩

end CasSph
