import Verif.Spec.FlFun

/-! # Positive numbers with close logarithms, and rounded operations on them -/

namespace CasSph

open Spec

/-- `a` and `b` are positive and their logarithms differ by at most `w`. -/
structure Near (w a b : ℝ) : Prop where
  a0 : 0 < a
  b0 : 0 < b
  le : |Real.log a - Real.log b| ≤ w

namespace Near

variable {w w' a b c d : ℝ}

theorem refl (h : 0 < a) : Near 0 a a := ⟨h, h, by simp⟩

theorem w0 (h : Near w a b) : 0 ≤ w := (abs_nonneg _).trans h.le

theorem mono (h : Near w a b) (hw : w ≤ w') : Near w' a b := ⟨h.a0, h.b0, h.le.trans hw⟩

theorem symm (h : Near w a b) : Near w b a := ⟨h.b0, h.a0, by rw [abs_sub_comm]; exact h.le⟩

theorem trans (h : Near w a b) (h' : Near w' b c) : Near (w + w') a c := by
  refine ⟨h.a0, h'.b0, ?_⟩
  have := abs_add_le (Real.log a - Real.log b) (Real.log b - Real.log c)
  rw [sub_add_sub_cancel] at this
  linarith [h.le, h'.le]

theorem upper (h : Near w a b) : a ≤ Real.exp w * b := by
  have h1 := (abs_le.1 h.le).2
  rw [← Real.log_le_log_iff h.a0 (by have := h.b0; positivity), Real.log_mul (Real.exp_ne_zero _) h.b0.ne', Real.log_exp]
  linarith

theorem of_upper (ha : 0 < a) (hb : 0 < b) (h1 : a ≤ Real.exp w * b) (h2 : b ≤ Real.exp w * a) : Near w a b := by
  refine ⟨ha, hb, ?_⟩
  rw [← Real.log_le_log_iff ha (by positivity), Real.log_mul (Real.exp_ne_zero _) hb.ne', Real.log_exp] at h1
  rw [← Real.log_le_log_iff hb (by positivity), Real.log_mul (Real.exp_ne_zero _) ha.ne', Real.log_exp] at h2
  rw [abs_le]; constructor <;> linarith

/-- A sum of positive numbers is as accurate as its less accurate summand. -/
theorem add (h : Near w a b) (h' : Near w c d) : Near w (a + c) (b + d) := by
  have := h.a0; have := h.b0; have := h'.a0; have := h'.b0
  refine of_upper (by positivity) (by positivity) ?_ ?_
  · linarith [h.upper, h'.upper, mul_add (Real.exp w) b d]
  · linarith [h.symm.upper, h'.symm.upper, mul_add (Real.exp w) a c]

theorem mul (h : Near w a b) (h' : Near w' c d) : Near (w + w') (a * c) (b * d) := by
  refine ⟨mul_pos h.a0 h'.a0, mul_pos h.b0 h'.b0, ?_⟩
  rw [Real.log_mul h.a0.ne' h'.a0.ne', Real.log_mul h.b0.ne' h'.b0.ne']
  have := abs_add_le (Real.log a - Real.log b) (Real.log c - Real.log d)
  rw [show Real.log a + Real.log c - (Real.log b + Real.log d) = (Real.log a - Real.log b) + (Real.log c - Real.log d) by ring]
  linarith [h.le, h'.le]

theorem inv (h : Near w a b) : Near w a⁻¹ b⁻¹ := by
  refine ⟨inv_pos.2 h.a0, inv_pos.2 h.b0, ?_⟩
  rw [Real.log_inv, Real.log_inv, show -Real.log a - -Real.log b = -(Real.log a - Real.log b) by ring, abs_neg]
  exact h.le

theorem div (h : Near w a b) (h' : Near w' c d) : Near (w + w') (a / c) (b / d) := by
  rw [div_eq_mul_inv, div_eq_mul_inv]; exact h.mul h'.inv

theorem exp {a b : ℝ} (h : |a - b| ≤ w) : Near w (Real.exp a) (Real.exp b) :=
  ⟨Real.exp_pos _, Real.exp_pos _, by simpa using h⟩

/-- A relative error. -/
theorem of_rel {δ : ℝ} (h0 : 0 ≤ δ) (h1 : δ < 1) (hb : 0 < b) (h : |a - b| ≤ δ * b) : Near (δ / (1 - δ)) a b := by
  obtain ⟨l, r⟩ := abs_le.1 h
  have e : 0 < 1 - δ := by linarith
  have ha : 0 < a := by nlinarith
  refine ⟨ha, hb, ?_⟩
  rw [← Real.log_div ha.ne' hb.ne', abs_le]
  have hab : 0 < a / b := div_pos ha hb
  have q1 : a / b ≤ 1 + δ := by rw [div_le_iff₀ hb]; linarith
  have q2 : 1 - δ ≤ a / b := by rw [le_div_iff₀ hb]; linarith
  constructor
  · have := Real.one_sub_inv_le_log_of_pos hab
    have : (a / b)⁻¹ ≤ (1 - δ)⁻¹ := inv_anti₀ e q2
    have : (1 - δ)⁻¹ = 1 + δ / (1 - δ) := by field_simp; ring
    linarith
  · have := Real.log_le_sub_one_of_pos hab
    have : δ ≤ δ / (1 - δ) := by rw [le_div_iff₀ e]; nlinarith
    linarith

/-- The absolute error, from the logarithmic one. -/
theorem abs_sub (h : Near w a b) (hw : w ≤ 1 / 20) : |a - b| ≤ 21 / 20 * w * b := by
  have w0 := h.w0
  have e : Real.exp w ≤ 1 + 21 / 20 * w := by
    have := Real.abs_exp_sub_one_sub_id_le (x := w) (by rw [abs_of_nonneg w0]; linarith)
    have := (abs_le.1 this).2
    nlinarith
  have h1 := h.upper
  have h2 := h.symm.upper
  have b0 := h.b0
  have a0 := h.a0
  rw [abs_le]
  constructor
  · have e' : 1 - w ≤ Real.exp (-w) := by linarith [Real.add_one_le_exp (-w)]
    have : Real.exp (-w) * b ≤ a := by
      have := mul_le_mul_of_nonneg_left h2 (Real.exp_pos (-w)).le
      rwa [← mul_assoc, ← Real.exp_add, neg_add_cancel, Real.exp_zero, one_mul] at this
    nlinarith
  · nlinarith

end Near

/-- `a + log (exp (b - a) + q)`, the recursion of `lnknu`, is a contraction for the larger of the two differences. -/
theorem lnk_step_lip {a b a' b' q w : ℝ} (hq : 0 < q) (ha : |a - a'| ≤ w) (hb : |b - b'| ≤ w) :
    |(a + Real.log (Real.exp (b - a) + q)) - (a' + Real.log (Real.exp (b' - a') + q))| ≤ w := by
  have e : ∀ a b : ℝ, a + Real.log (Real.exp (b - a) + q) = Real.log (Real.exp b + q * Real.exp a) := by
    intro a b
    have : Real.exp b + q * Real.exp a = Real.exp a * (Real.exp (b - a) + q) := by
      rw [mul_add, ← Real.exp_add]; ring_nf
    rw [this, Real.log_mul (Real.exp_ne_zero _) (by positivity), Real.log_exp]
  rw [e, e]
  have := ((Near.refl hq).mul (Near.exp ha))
  rw [zero_add] at this
  exact ((Near.exp hb).add this).le

namespace Spec.RelErr

variable {A : FlFun} {u : ℝ} (hA : RelErr A u)
include hA

theorem near {a b : ℝ} (hb : 0 < b) (h : |a - b| ≤ u * |b|) : Near (100 / 99 * u) a b := by
  have h0 := hA.u0
  have h1 := hA.u1
  rw [abs_of_pos hb] at h
  refine (Near.of_rel h0 (by linarith) hb h).mono ?_
  rw [div_le_iff₀ (by linarith)]
  nlinarith

theorem add_near {w a b c d : ℝ} (h : Near w a b) (h' : Near w c d) : Near (w + 100 / 99 * u) (A.add a c) (b + d) := by
  have := (hA.near (add_pos h.a0 h'.a0) (hA.add a c)).trans (h.add h')
  rwa [add_comm] at this

theorem mul_near {w w' a b c d : ℝ} (h : Near w a b) (h' : Near w' c d) :
    Near (w + w' + 100 / 99 * u) (A.mul a c) (b * d) := by
  have := (hA.near (mul_pos h.a0 h'.a0) (hA.mul a c)).trans (h.mul h')
  rwa [add_comm] at this

theorem div_near {w w' a b c d : ℝ} (h : Near w a b) (h' : Near w' c d) :
    Near (w + w' + 100 / 99 * u) (A.div a c) (b / d) := by
  have := (hA.near (div_pos h.a0 h'.a0) (hA.div a c h'.a0.ne')).trans (h.div h')
  rwa [add_comm] at this

theorem exp_near {w a b : ℝ} (h : |a - b| ≤ w) : Near (w + 100 / 99 * u) (A.exp a) (Real.exp b) := by
  have := (hA.near (Real.exp_pos a) (by rw [abs_of_pos (Real.exp_pos a)]; exact hA.exp a)).trans (Near.exp h)
  rwa [add_comm] at this

theorem pow_near {x : ℝ} (hx : 0 < x) (n : ℕ) : Near (100 / 99 * u) (A.pow x n) (x ^ n) :=
  hA.near (pow_pos hx n) (hA.pow x n)

theorem pi_near : Near (100 / 99 * u) A.pi Real.pi :=
  hA.near Real.pi_pos (by rw [abs_of_pos Real.pi_pos]; exact hA.pi)

theorem log_near {w a b : ℝ} (h : Near w a b) : |A.log a - Real.log b| ≤ w + u * (|Real.log b| + w) := by
  have h1 := hA.log a h.a0
  have h2 := h.le
  have h3 : |Real.log a| ≤ |Real.log b| + w := by
    have := abs_add_le (Real.log a - Real.log b) (Real.log b)
    rw [sub_add_cancel] at this; linarith
  have := abs_add_le (A.log a - Real.log a) (Real.log a - Real.log b)
  rw [sub_add_sub_cancel] at this
  have := mul_le_mul_of_nonneg_left h3 hA.u0
  linarith

theorem log_err {w a b : ℝ} (h : Near w a b) : |A.log a - Real.log b| ≤ 101 / 100 * w + u * |Real.log b| := by
  have := hA.log_near h
  nlinarith [hA.u1, h.w0]

theorem add_abs {a b a' b' s t m : ℝ} (ha : |a - a'| ≤ s) (hb : |b - b'| ≤ t) (hm : |a' + b'| ≤ m) :
    |A.add a b - (a' + b')| ≤ s + t + u * (m + s + t) := by
  have h1 := hA.add a b
  have h2 : |a + b - (a' + b')| ≤ s + t := by
    have := abs_add_le (a - a') (b - b')
    rw [show a + b - (a' + b') = a - a' + (b - b') by ring]; linarith
  have h3 : |a + b| ≤ m + s + t := by
    have := abs_add_le (a + b - (a' + b')) (a' + b')
    rw [sub_add_cancel] at this; linarith
  have := abs_add_le (A.add a b - (a + b)) (a + b - (a' + b'))
  rw [sub_add_sub_cancel] at this
  have := mul_le_mul_of_nonneg_left h3 hA.u0
  linarith

theorem sub_abs {a b a' b' s t m : ℝ} (ha : |a - a'| ≤ s) (hb : |b - b'| ≤ t) (hm : |a' - b'| ≤ m) :
    |A.sub a b - (a' - b')| ≤ s + t + u * (m + s + t) := by
  have h1 := hA.sub a b
  have h2 : |a - b - (a' - b')| ≤ s + t := by
    have := abs_sub (a - a') (b - b')
    rw [show a - b - (a' - b') = a - a' - (b - b') by ring]; linarith
  have h3 : |a - b| ≤ m + s + t := by
    have := abs_add_le (a - b - (a' - b')) (a' - b')
    rw [sub_add_cancel] at this; linarith
  have := abs_add_le (A.sub a b - (a - b)) (a - b - (a' - b'))
  rw [sub_add_sub_cancel] at this
  have := mul_le_mul_of_nonneg_left h3 hA.u0
  linarith

theorem add_err {a b a' b' s t m : ℝ} (ha : |a - a'| ≤ s) (hb : |b - b'| ≤ t) (hm : |a' + b'| ≤ m) :
    |A.add a b - (a' + b')| ≤ 101 / 100 * (s + t) + u * m := by
  have := hA.add_abs ha hb hm
  nlinarith [hA.u1, (abs_nonneg _).trans ha, (abs_nonneg _).trans hb]

theorem sub_err {a b a' b' s t m : ℝ} (ha : |a - a'| ≤ s) (hb : |b - b'| ≤ t) (hm : |a' - b'| ≤ m) :
    |A.sub a b - (a' - b')| ≤ 101 / 100 * (s + t) + u * m := by
  have := hA.sub_abs ha hb hm
  nlinarith [hA.u1, (abs_nonneg _).trans ha, (abs_nonneg _).trans hb]

end Spec.RelErr

end CasSph
