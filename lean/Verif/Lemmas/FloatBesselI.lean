import Verif.Lemmas.FloatBessel
import Mathlib.Analysis.Complex.ExponentialBounds

/-! # Rounding errors of `lniknu` -/

namespace CasSph

open Spec

theorem fraction_ge {a : ℝ} {t : List ℝ} (ht : ∀ b ∈ t, 0 < b) (ha : 0 < a) : a ≤ fraction (a :: t) := by
  induction t generalizing a with
  | nil => simp [fraction]
  | cons b t ih =>
    have hb := ht b (by simp)
    have := ih (fun c hc => ht c (by simp [hc])) hb
    have : 0 < 1 / fraction (b :: t) := by apply one_div_pos.2; linarith
    rw [fraction]; linarith

theorem fnu1_ge {N : ℕ} (hN : 1 ≤ N) {x nu : ℝ} (hx : 0 < x) (hnu : 0 < nu) : 2 * (nu + 1) / x ≤ fnu1 N x nu := by
  obtain ⟨N, rfl⟩ := Nat.exists_eq_add_of_le' hN
  unfold fnu1
  rw [List.range'_succ, List.map_cons]
  refine le_trans (le_of_eq (by simp)) (fraction_ge ?_ (by positivity))
  intro b hb
  obtain ⟨n, -, rfl⟩ := List.mem_map.1 hb
  positivity

/-- `exp(-2x)(x+1)+x-1`, the number whose logarithm order 1 takes. -/
noncomputable def wOne (x : ℝ) : ℝ := Real.exp (-2 * x) * (x + 1) + x - 1

theorem wOne_pos {x : ℝ} (hx : 0 < x) : 0 < wOne x := (i1lg_eq hx).1

theorem exp_sq_le {x : ℝ} (hx : 0 ≤ x) : Real.exp (-2 * x) * (x + 1) * (x + 1) ≤ 1 := by
  have h := Real.add_one_le_exp x
  have : (x + 1) * (x + 1) ≤ Real.exp x * Real.exp x := mul_le_mul h h (by linarith) (Real.exp_pos x).le
  rw [← Real.exp_add] at this
  calc Real.exp (-2 * x) * (x + 1) * (x + 1) = Real.exp (-2 * x) * ((x + 1) * (x + 1)) := by ring
    _ ≤ Real.exp (-2 * x) * Real.exp (x + x) := mul_le_mul_of_nonneg_left this (Real.exp_pos _).le
    _ = 1 := by rw [← Real.exp_add]; ring_nf; simp

theorem exp_lin_le {x : ℝ} (hx : 0 ≤ x) : Real.exp (-2 * x) * (x + 1) ≤ 1 := by
  have := exp_sq_le hx
  have : 0 ≤ Real.exp (-2 * x) * (x + 1) := by positivity
  nlinarith

theorem wOne_le {x : ℝ} (hx : 0 ≤ x) : wOne x ≤ x := by
  unfold wOne; linarith [exp_lin_le hx]

theorem third_le_sphI_one {x : ℝ} (hx : 0 < x) : x / 3 ≤ sphI 1 x := by
  have h := le_hasSum (sphI_hasSum 1 x) 0 (fun j _ => by
    unfold iTerm; have := dfac_pos (2 * (1 + j) + 1); positivity)
  refine le_trans (le_of_eq ?_) h
  simp [iTerm, Nat.doubleFactorial]

theorem wOne_ge {x : ℝ} (hx : 0 < x) : 2 / 3 * x ^ 3 * Real.exp (-x) ≤ wOne x := by
  have h := third_le_sphI_one hx
  have e : wOne x = 2 * x ^ 2 * Real.exp (-x) * sphI 1 x := by
    rw [sphI_one hx.ne', Real.sinh_eq, Real.cosh_eq, wOne]
    have h1 : Real.exp (-2 * x) = Real.exp (-x) * Real.exp (-x) := by rw [← Real.exp_add]; ring_nf
    have h2 : Real.exp x = (Real.exp (-x))⁻¹ := by rw [Real.exp_neg, inv_inv]
    rw [h1, h2]
    have := (Real.exp_pos (-x)).ne'
    field_simp
    ring
  rw [e]
  have : 2 / 3 * x ^ 3 * Real.exp (-x) = 2 * x ^ 2 * Real.exp (-x) * (x / 3) := by ring
  rw [this]
  exact mul_le_mul_of_nonneg_left h (by positivity)

theorem log_wOne_abs {x : ℝ} (hx : 0 < x) : |Real.log (wOne x)| ≤ 1 / 2 + 3 * |Real.log x| + x := by
  have h1 := Real.log_le_log (wOne_pos hx) (wOne_le hx.le)
  have h2 := Real.log_le_log (by positivity) (wOne_ge hx)
  rw [Real.log_mul (by positivity) (by positivity), Real.log_exp, Real.log_mul (by norm_num) (by positivity), Real.log_pow] at h2
  have h3 : -(1 / 2 : ℝ) ≤ Real.log (2 / 3) := by
    have := Real.one_sub_inv_le_log_of_pos (show (0 : ℝ) < 2 / 3 by norm_num)
    norm_num at this ⊢; linarith
  have h4 := neg_abs_le (Real.log x)
  have h5 := le_abs_self (Real.log x)
  have h6 := abs_nonneg (Real.log x)
  push_cast at h2
  rw [abs_le]; constructor <;> linarith

theorem one_add_le_wOne {x : ℝ} (hx : 0 < x) : 1 + x ≤ 9 * (1 + 1 / x ^ 3) * wOne x := by
  have hw := wOne_pos hx
  rcases le_total x 1 with h | h
  · have h1 := wOne_ge hx
    have h2 : Real.exp (-1) ≤ Real.exp (-x) := Real.exp_le_exp.2 (by linarith)
    have h3 : (1 / 3 : ℝ) < Real.exp (-1) := by
      rw [Real.exp_neg, ← one_div]
      exact one_div_lt_one_div_of_lt (Real.exp_pos 1) (by linarith [Real.exp_one_lt_d9])
    have hx3 : 0 < x ^ 3 := by positivity
    have h4 : 2 / 9 * x ^ 3 ≤ wOne x := by nlinarith
    have h5 : 2 / 9 ≤ 1 / x ^ 3 * wOne x := by
      rw [one_div, inv_mul_eq_div, le_div_iff₀ hx3]; exact h4
    nlinarith
  · have h1 : 1 + x ≤ 8 * wOne x := by
      have e2 : Real.exp (-2) * (3 - 2 * x) ≤ Real.exp (-2 * x) := by
        have := Real.add_one_le_exp (2 - 2 * x)
        have := mul_le_mul_of_nonneg_left this (Real.exp_pos (-2)).le
        rw [← Real.exp_add] at this
        ring_nf at this ⊢; linarith
      have e1 : (133 / 1000 : ℝ) < Real.exp (-2) := by
        rw [Real.exp_neg, ← one_div, lt_div_iff₀ (Real.exp_pos 2), show (2 : ℝ) = 1 + 1 by norm_num, Real.exp_add]
        nlinarith [Real.exp_one_lt_d9, Real.exp_pos 1]
      have e0 := Real.exp_pos (-2 * x)
      unfold wOne
      rcases le_total x (13 / 10) with h' | h'
      · nlinarith
      · nlinarith
    have : 0 < 1 / x ^ 3 * wOne x := by positivity
    nlinarith

namespace Spec.RelErr

variable {A : FlFun} {u : ℝ} (hA : RelErr A u) {x : ℝ}

include hA

theorem fraction_near {g h : ℕ → ℝ} {w : ℝ} (hgh : ∀ n, Near w (g n) (h n)) : ∀ (l : List ℕ), l ≠ [] →
    Near (w + 2 * ((l.length : ℝ) - 1) * (100 / 99 * u)) (A.fraction (l.map g)) (fraction (l.map h))
  | [], h => absurd rfl h
  | [n], _ => by simpa [FlFun.fraction, fraction] using hgh n
  | n :: m :: t, _ => by
    have ih := fraction_near hgh (m :: t) (by simp)
    have hu := hA.u0
    have h1 := hA.div_near (Near.refl one_pos) ih
    have hl : (0 : ℝ) ≤ t.length := Nat.cast_nonneg _
    refine (hA.add_near ((hgh n).mono ?_) h1).mono ?_
    · simp only [List.length_cons]; push_cast; nlinarith
    · simp only [List.length_cons]; push_cast; linarith

theorem fnu_near (hx : 0 < x) {nu : ℝ} (hnu : 0 < nu) {N : ℕ} (hN : 1 ≤ N) :
    Near ((2 * N + 1) * (100 / 99 * u)) (A.fnu N x nu) (fnu1 N x nu) := by
  have hgh : ∀ n : ℕ, Near (3 * (100 / 99 * u)) (A.div (A.mul 2 (A.add nu n)) x) (2 * (nu + n) / x) := by
    intro n
    have h0 : 0 < nu + n := by positivity
    have h1 := hA.near h0 (hA.add nu n)
    exact (hA.div_near (hA.mul_near (Near.refl two_pos) h1) (Near.refl hx)).mono (by linarith)
  have := hA.fraction_near hgh (List.range' 1 N) (by
    intro h; have := congrArg List.length h; simp at this; omega)
  refine this.mono (le_of_eq ?_)
  rw [List.length_range']; ring

/-- Order `l` of `lniknu` from the Wronskian. -/
theorem iHigh_err (hx : 0 < x) {l N : ℕ} (hl : 2 ≤ l) (hN : 1 ≤ N) {M : ℝ} (hM : bSize x ≤ M)
    (hT : ∀ j ≤ l + 1, |lnk1 x j| ≤ M) (hn : 32 * ((l : ℝ) + 2) * u ≤ 1) :
    |A.iHigh N x l - iHigh N x l| ≤ 30 * (l + 2) * u * M + 3 * N * u := by
  have hu := hA.u0
  have hu1 := hA.u1
  have hl' : (2 : ℝ) ≤ l := by exact_mod_cast hl
  have hN' : (1 : ℝ) ≤ N := by exact_mod_cast hN
  have hL := abs_nonneg (Real.log x)
  have hM' := hM
  unfold bSize at hM'
  have e1 := hA.lnk_err hx hM hT (by push_cast; linarith) (l + 1) le_rfl
  have e0 := hA.lnk_err hx hM hT (by push_cast; linarith) l (by omega)
  push_cast at e1
  have huM : 0 ≤ u * M := mul_nonneg hu (by linarith)
  obtain ⟨E, hE⟩ : ∃ E, E = 8 * ((l : ℝ) + 2) * u * M := ⟨_, rfl⟩
  have e1' : |A.lnk x (l + 1) - lnk1 x (l + 1)| ≤ E := by rw [hE]; exact e1.trans (le_of_eq (by ring))
  have e0' : |A.lnk x l - lnk1 x l| ≤ E := by rw [hE]; exact e0.trans (by nlinarith)
  have E0 : 0 ≤ E := (abs_nonneg _).trans e1'
  have t0 := hT l (by omega)
  have t1 := hT (l + 1) le_rfl
  -- the prefactor
  have p0 := hA.log_err (hA.div_near hA.pi_near (hA.mul_near (Near.refl two_pos) (hA.pow_near hx 2)))
  have pe : Real.log (Real.pi / (2 * x ^ 2)) = Real.log (Real.pi * 0.5) - 2 * Real.log x := by
    rw [show Real.pi / (2 * x ^ 2) = Real.pi * 0.5 / x ^ 2 by field_simp; norm_num,
      Real.log_div (by have := Real.pi_pos; positivity) (by positivity), Real.log_pow]
    push_cast; ring
  have pb : |Real.log (Real.pi / (2 * x ^ 2))| ≤ 3 / 5 + 2 * |Real.log x| := by
    rw [pe]
    have := abs_sub (Real.log (Real.pi * 0.5)) (2 * Real.log x)
    rw [abs_mul, abs_two] at this; linarith [log_pih_abs]
  -- the first difference
  have m1 : |Real.log (Real.pi / (2 * x ^ 2)) - lnk1 x (l + 1)| ≤ 2 * M := by
    have := abs_sub (Real.log (Real.pi / (2 * x ^ 2))) (lnk1 x (l + 1)); linarith
  have d1 := hA.sub_err p0 e1' m1
  -- the logarithm
  have md : |lnk1 x l - lnk1 x (l + 1)| ≤ 2 * M := by
    have := abs_sub (lnk1 x l) (lnk1 x (l + 1)); linarith
  have d2 := hA.sub_err e0' e1' md
  have hf := hA.fnu_near hx (show (0 : ℝ) < l + 0.5 by positivity) hN
  have q1 := hA.div_near (hA.exp_near d2) hf
  have q2 := hA.add_near q1 ((Near.refl one_pos).mono q1.w0)
  have q3 := hA.log_err q2
  have f0 := hf.b0
  have fge := fnu1_ge hN hx (show (0 : ℝ) < l + 0.5 by positivity)
  have r0 : 0 < Real.exp (lnk1 x l - lnk1 x (l + 1)) / fnu1 N x (l + 0.5) := div_pos (Real.exp_pos _) f0
  have r1 : Real.exp (lnk1 x l - lnk1 x (l + 1)) / fnu1 N x (l + 0.5) ≤ x := by
    rw [div_le_iff₀ f0]
    have a1 : Real.exp (lnk1 x l - lnk1 x (l + 1)) ≤ 1 := by
      rw [Real.exp_le_one_iff, lnk1_eq hx, lnk1_eq hx]
      have := Real.log_le_log (sphK_pos l hx) (sphK_mono (Nat.le_succ l) hx)
      linarith
    rw [div_le_iff₀ hx] at fge
    linarith
  have qb : |Real.log (Real.exp (lnk1 x l - lnk1 x (l + 1)) / fnu1 N x (l + 0.5) + 1)| ≤ x := by
    rw [abs_of_nonneg (Real.log_nonneg (by linarith))]
    have := Real.log_le_sub_one_of_pos (show 0 < Real.exp (lnk1 x l - lnk1 x (l + 1)) / fnu1 N x (l + 0.5) + 1 by linarith)
    linarith
  have m2 : |Real.log (Real.pi / (2 * x ^ 2)) - lnk1 x (l + 1) -
      Real.log (Real.exp (lnk1 x l - lnk1 x (l + 1)) / fnu1 N x (l + 0.5) + 1)| ≤ 3 * M := by
    have := abs_sub (Real.log (Real.pi / (2 * x ^ 2)) - lnk1 x (l + 1))
      (Real.log (Real.exp (lnk1 x l - lnk1 x (l + 1)) / fnu1 N x (l + 0.5) + 1))
    linarith
  have d3 := hA.sub_err d1 q3 m2
  unfold FlFun.iHigh iHigh
  refine d3.trans ?_
  have k1 := mul_le_mul_of_nonneg_left pb hu
  have k2 := mul_le_mul_of_nonneg_left qb hu
  have k3 := mul_le_mul_of_nonneg_left hM' hu
  have k4 : 0 ≤ u * |Real.log x| := by positivity
  have k5 : 0 ≤ u * x := by positivity
  have k6 : u ≤ N * u := by nlinarith
  have k7 : 2 * (u * M) ≤ l * (u * M) := mul_le_mul_of_nonneg_right hl' huM
  have k8 : E = 8 * (l * (u * M)) + 16 * (u * M) := by rw [hE]; ring
  have k9 : 30 * ((l : ℝ) + 2) * u * M + 3 * N * u = 30 * (l * (u * M)) + 60 * (u * M) + 3 * (N * u) := by ring
  rw [k9]
  clear hE d3 m2 qb r1 r0 fge q3 q2 q1 hf d2 md d1 m1 pb pe p0 e0 e1 e0' e1'
  generalize |Real.log (Real.pi / (2 * x ^ 2))| = y1 at *
  generalize |Real.log (Real.exp (lnk1 x l - lnk1 x (l + 1)) / fnu1 N x (l + 0.5) + 1)| = y2 at *
  have z : (2 * (N : ℝ) + 1) * (100 / 99 * u) = 200 / 99 * (N * u) + 100 / 99 * u := by ring
  rw [z]
  linarith

theorem exp2_near (hx : 0 < x) : Near (2 * (u * x) + 100 / 99 * u) (A.exp (A.mul (-2) x)) (Real.exp (-2 * x)) := by
  refine hA.exp_near ((hA.mul (-2) x).trans (le_of_eq ?_))
  rw [abs_mul, abs_neg, abs_two, abs_of_pos hx]; ring

theorem log2x_err (hx : 0 < x) : |-A.log (A.mul 2 x) - -Real.log (2 * x)| ≤ 9 / 5 * u + u * |Real.log x| := by
  have h := hA.log_err (hA.mul_near (Near.refl two_pos) (Near.refl hx))
  have h2 : |Real.log (2 * x)| ≤ 7 / 10 + |Real.log x| := by
    rw [Real.log_mul two_ne_zero hx.ne']
    have := abs_add_le (Real.log 2) (Real.log x)
    rw [abs_of_pos (Real.log_pos one_lt_two)] at this
    linarith [Real.log_two_lt_d9]
  have := mul_le_mul_of_nonneg_left h2 hA.u0
  rw [show -A.log (A.mul 2 x) - -Real.log (2 * x) = -(A.log (A.mul 2 x) - Real.log (2 * x)) by ring, abs_neg]
  linarith [hA.u0]

/-- Order 0, large arguments. -/
theorem i0lg_err (hx : 0 < x) (hux : 200 * u * x ≤ 1) (h20 : 20 * u ≤ x) :
    |A.i0lg x - i0lg x| ≤ 2 * u * bSize x + 3 * u / x := by
  have hu := hA.u0
  have hu1 := hA.u1
  have hux0 : 0 ≤ u * x := by positivity
  have hL := abs_nonneg (Real.log x)
  have huL : 0 ≤ u * |Real.log x| := by positivity
  have hd : 0 < u / x ∨ u / x = 0 := by
    rcases hu.eq_or_lt with h | h
    · right; rw [← h, zero_div]
    · left; positivity
  have hd0 : 0 ≤ u / x := by positivity
  have hd1 : u / x ≤ 1 / 20 := by rw [div_le_iff₀ hx]; linarith
  have e0 := Real.exp_pos (-2 * x)
  have n1 := (hA.exp2_near hx).abs_sub (by linarith)
  -- exp(-2x)(1+x) ≤ (1 - exp(-2x))/(2x)
  have key : Real.exp (-2 * x) * (1 + x) * (2 * x) ≤ 1 - Real.exp (-2 * x) := by
    have h := Real.quadratic_le_exp_of_nonneg (show 0 ≤ 2 * x by linarith)
    have := mul_le_mul_of_nonneg_left h e0.le
    rw [← Real.exp_add, show -2 * x + 2 * x = 0 by ring, Real.exp_zero] at this
    nlinarith
  have w0 : 0 < 1 - Real.exp (-2 * x) := (i0lg_eq hx).1
  have n2 : |1 - A.exp (A.mul (-2) x) - (1 - Real.exp (-2 * x))| ≤ 11 / 10 * (u / x) * (1 - Real.exp (-2 * x)) := by
    rw [show 1 - A.exp (A.mul (-2) x) - (1 - Real.exp (-2 * x)) = -(A.exp (A.mul (-2) x) - Real.exp (-2 * x)) by ring, abs_neg]
    refine n1.trans ?_
    have a1 : 21 / 20 * (2 * (u * x) + 100 / 99 * u) ≤ 11 / 10 * u * (2 * (1 + x)) := by nlinarith
    have a2 := mul_le_mul_of_nonneg_right a1 e0.le
    have a3 := mul_le_mul_of_nonneg_left key (show 0 ≤ 11 / 10 * (u / x) by positivity)
    have a4 : 11 / 10 * (u / x) * (Real.exp (-2 * x) * (1 + x) * (2 * x)) = 11 / 10 * u * (2 * (1 + x)) * Real.exp (-2 * x) := by
      field_simp
    linarith
  have n3 := Near.of_rel (by positivity) (by linarith) w0 n2
  have n3' : Near (59 / 50 * (u / x)) (1 - A.exp (A.mul (-2) x)) (1 - Real.exp (-2 * x)) := by
    refine n3.mono ?_
    rw [div_le_iff₀ (by linarith)]
    nlinarith
  have n4 := hA.log_err ((hA.near n3'.a0 (hA.sub 1 (A.exp (A.mul (-2) x)))).trans n3')
  have lb : |Real.log (1 - Real.exp (-2 * x))| ≤ 1 / (2 * x) := by
    have h1 : Real.log (1 - Real.exp (-2 * x)) ≤ 0 := Real.log_nonpos w0.le (by linarith)
    rw [abs_of_nonpos h1]
    have h2 := Real.one_sub_inv_le_log_of_pos w0
    have h3 : (1 - Real.exp (-2 * x))⁻¹ ≤ 1 + 1 / (2 * x) := by
      rw [inv_le_iff_one_le_mul₀ w0]
      have : Real.exp (-2 * x) ≤ (1 - Real.exp (-2 * x)) * (1 / (2 * x)) := by
        rw [mul_one_div, le_div_iff₀ (by linarith)]
        nlinarith [mul_pos e0 hx, mul_pos (mul_pos e0 hx) hx]
      nlinarith
    linarith
  have hh : u * (1 / (2 * x)) = u / x / 2 := by field_simp
  have lb' := mul_le_mul_of_nonneg_left lb hu
  rw [hh] at lb'
  have h2x := hA.log2x_err hx
  have b2 : |Real.log (2 * x)| ≤ 7 / 10 + |Real.log x| := by
    rw [Real.log_mul two_ne_zero hx.ne']
    have := abs_add_le (Real.log 2) (Real.log x)
    rw [abs_of_pos (Real.log_pos one_lt_two)] at this
    linarith [Real.log_two_lt_d9]
  have m1 : |-Real.log (2 * x) + Real.log (1 - Real.exp (-2 * x))| ≤ 7 / 10 + |Real.log x| + 1 / (2 * x) := by
    have := abs_add_le (-Real.log (2 * x)) (Real.log (1 - Real.exp (-2 * x)))
    rw [abs_neg] at this; linarith
  have s1 := hA.add_err h2x n4 m1
  have m2 : |-Real.log (2 * x) + Real.log (1 - Real.exp (-2 * x)) + x| ≤ 7 / 10 + |Real.log x| + 1 / (2 * x) + x := by
    have := abs_add_le (-Real.log (2 * x) + Real.log (1 - Real.exp (-2 * x))) x
    rw [abs_of_pos hx] at this; linarith
  have s2 := hA.add_err s1 (show |x - x| ≤ 0 by simp) m2
  unfold FlFun.i0lg i0lg bSize
  refine s2.trans ?_
  have z1 : u * (7 / 10 + |Real.log x| + 1 / (2 * x) + x) = 7 / 10 * u + u * |Real.log x| + u / x / 2 + u * x := by
    rw [← hh]; ring
  have z2 : u * (7 / 10 + |Real.log x| + 1 / (2 * x)) = 7 / 10 * u + u * |Real.log x| + u / x / 2 := by
    rw [← hh]; ring
  have z3 : 2 * u * (4 + 2 * |Real.log x| + x) + 3 * u / x = 8 * u + 4 * (u * |Real.log x|) + 2 * (u * x) + 3 * (u / x) := by ring
  rw [z1, z2, z3]
  linarith

/-- Order 1, large arguments. -/
theorem i1lg_err (hx : 0 < x) (hux : 200 * u * x ≤ 1) (hw : 100 * u * (1 + x) ≤ wOne x) :
    |A.i1lg x - i1lg x| ≤ 8 * u * bSize x + 5 * u * (1 + x) / wOne x := by
  have hu := hA.u0
  have hu1 := hA.u1
  have hux0 : 0 ≤ u * x := by positivity
  have hL := abs_nonneg (Real.log x)
  have huL : 0 ≤ u * |Real.log x| := by positivity
  have W0 := wOne_pos hx
  have p0 : 0 < Real.exp (-2 * x) * (x + 1) := by positivity
  have p1 := exp_lin_le hx.le
  have p2 := exp_sq_le hx.le
  -- the product
  have n1 := hA.mul_near (hA.exp2_near hx) (hA.add_near (Near.refl hx) (Near.refl one_pos))
  have n2 := n1.abs_sub (by linarith)
  have n2' : |A.mul (A.exp (A.mul (-2) x)) (A.add x 1) - Real.exp (-2 * x) * (x + 1)| ≤ 16 / 5 * u := by
    refine n2.trans ?_
    have a1 : 21 / 20 * (2 * (u * x) + 100 / 99 * u + (0 + 100 / 99 * u) + 100 / 99 * u) ≤ 16 / 5 * u * (x + 1) := by nlinarith
    have a2 := mul_le_mul_of_nonneg_right a1 p0.le
    have a3 := mul_le_mul_of_nonneg_left p2 (show 0 ≤ 16 / 5 * u by positivity)
    linarith
  have n3 := hA.add_err n2' (show |x - x| ≤ 0 by simp) (show |Real.exp (-2 * x) * (x + 1) + x| ≤ 1 + x by
    rw [abs_of_pos (by linarith)]; linarith)
  obtain ⟨q, hq⟩ : ∃ q, q = A.add (A.mul (A.exp (A.mul (-2) x)) (A.add x 1)) x := ⟨_, rfl⟩
  rw [← hq] at n3
  obtain ⟨δ, hδ⟩ : ∃ δ, δ = u * (1 + x) / wOne x := ⟨_, rfl⟩
  have δ0 : 0 ≤ δ := by rw [hδ]; positivity
  have δ1 : δ ≤ 1 / 100 := by rw [hδ, div_le_iff₀ W0]; linarith
  have δW : δ * wOne x = u * (1 + x) := by rw [hδ, div_mul_cancel₀ _ W0.ne']
  have n4 : |q - 1 - wOne x| ≤ 43 / 10 * δ * wOne x := by
    rw [mul_assoc, δW, show q - 1 - wOne x = q - (Real.exp (-2 * x) * (x + 1) + x) by unfold wOne; ring]
    refine n3.trans ?_
    linarith
  have n5 : Near (9 / 2 * δ) (q - 1) (wOne x) := by
    refine (Near.of_rel (by positivity) (by linarith) W0 n4).mono ?_
    rw [div_le_iff₀ (by linarith)]
    nlinarith
  have n6 := hA.log_err ((hA.near n5.a0 (hA.sub q 1)).trans n5)
  have lW := log_wOne_abs hx
  have lW' := mul_le_mul_of_nonneg_left lW hu
  have h2x := hA.log2x_err hx
  have b2 : |Real.log (2 * x)| ≤ 7 / 10 + |Real.log x| := by
    rw [Real.log_mul two_ne_zero hx.ne']
    have := abs_add_le (Real.log 2) (Real.log x)
    rw [abs_of_pos (Real.log_pos one_lt_two)] at this
    linarith [Real.log_two_lt_d9]
  have m1 : |-Real.log (2 * x) - Real.log x| ≤ 7 / 10 + 2 * |Real.log x| := by
    have := abs_sub (-Real.log (2 * x)) (Real.log x)
    rw [abs_neg] at this; linarith
  have s1 := hA.sub_err h2x (hA.log_x hx) m1
  have m2 : |-Real.log (2 * x) - Real.log x + x| ≤ 7 / 10 + 2 * |Real.log x| + x := by
    have := abs_add_le (-Real.log (2 * x) - Real.log x) x
    rw [abs_of_pos hx] at this; linarith
  have s2 := hA.add_err s1 (show |x - x| ≤ 0 by simp) m2
  have m3 : |-Real.log (2 * x) - Real.log x + x + Real.log (wOne x)| ≤ 6 / 5 + 5 * |Real.log x| + 2 * x := by
    have := abs_add_le (-Real.log (2 * x) - Real.log x + x) (Real.log (wOne x))
    linarith
  have s3 := hA.add_err s2 n6 m3
  rw [hq] at s3
  rw [show A.i1lg x = A.add (A.add (A.sub (-A.log (A.mul 2 x)) (A.log x)) x)
    (A.log (A.sub (A.add (A.mul (A.exp (A.mul (-2) x)) (A.add x 1)) x) 1)) from rfl,
    show i1lg x = -Real.log (2 * x) - Real.log x + x + Real.log (wOne x) from rfl]
  refine s3.trans ?_
  have z3 : 8 * u * bSize x + 5 * u * (1 + x) / wOne x = 32 * u + 16 * (u * |Real.log x|) + 8 * (u * x) + 5 * δ := by
    rw [hδ]; unfold bSize; ring
  rw [z3]
  clear s3 m3 s2 m2 s1 m1 n6 n5 n4 n3 n2 n1
  nlinarith

theorem quot_err (hx : 0 < x) (n : ℕ) {c : ℝ} (hc : 0 < c) :
    |A.div (A.pow x n) c - x ^ n / c| ≤ 11 / 5 * u * (x ^ n / c) := by
  have hu := hA.u0
  have hu1 := hA.u1
  have := (hA.div_near (hA.pow_near hx n) (Near.refl hc)).abs_sub (by linarith)
  refine this.trans (mul_le_mul_of_nonneg_right (by linarith) (by positivity))

/-- Order 0, small arguments. -/
theorem i0smShort_err (hx : 0 < x) (hs : x < 1e-3) : |A.i0smShort x - i0smShort x| ≤ u * x ^ 2 := by
  have hu := hA.u0
  have x2 : x ^ 2 ≤ 1 := by nlinarith
  have x4 : x ^ 4 ≤ x ^ 2 := by nlinarith [sq_nonneg x]
  have m : |x ^ 2 / 6 - x ^ 4 / 180| ≤ x ^ 2 / 6 := by
    have : 0 ≤ x ^ 4 := by positivity
    rw [abs_of_nonneg (by linarith)]; linarith
  have h := hA.sub_err (hA.quot_err hx 2 (c := 6) (by norm_num)) (hA.quot_err hx 4 (c := 180) (by norm_num)) m
  unfold FlFun.i0smShort i0smShort
  have := mul_le_mul_of_nonneg_left x4 hu
  have : 0 ≤ u * x ^ 2 := by positivity
  refine h.trans ?_
  linarith

theorem i0smLong_err (hx : 0 < x) (hs : x < 1e-3) : |A.i0smLong x - i0smLong x| ≤ 2 * u * x ^ 2 := by
  have hu := hA.u0
  have x2 : x ^ 2 ≤ 1 := by nlinarith
  have p2 : 0 ≤ x ^ 2 := by positivity
  have p4 : 0 ≤ x ^ 4 := by positivity
  have p6 : 0 ≤ x ^ 6 := by positivity
  have x4 : x ^ 4 ≤ x ^ 2 := by nlinarith [sq_nonneg x]
  have x6 : x ^ 6 ≤ x ^ 2 := by
    have : x ^ 6 = x ^ 4 * x ^ 2 := by ring
    nlinarith
  have m : |x ^ 2 / 6 - x ^ 4 / 180 + x ^ 6 / 2835| ≤ x ^ 2 / 5 := by
    rw [abs_of_nonneg (by linarith)]; linarith
  have h := hA.add_err (hA.i0smShort_err hx hs) (hA.quot_err hx 6 (c := 2835) (by norm_num)) m
  unfold FlFun.i0smLong i0smLong
  have := mul_le_mul_of_nonneg_left x6 hu
  have : 0 ≤ u * x ^ 2 := by positivity
  refine h.trans ?_
  linarith

/-- Order 1, small arguments. -/
theorem i1smShort_err (hx : 0 < x) (hs : x < 1e-3) : |A.i1smShort x - i1smShort x| ≤ 2 * u * bSize x := by
  have hu := hA.u0
  have hu1 := hA.u1
  have hL := abs_nonneg (Real.log x)
  have huL : 0 ≤ u * |Real.log x| := by positivity
  have hux0 : 0 ≤ u * x := by positivity
  have x2 : x ^ 2 ≤ 1 / 10 := by nlinarith
  have p2 : 0 ≤ x ^ 2 := by positivity
  have l3 : |Real.log 3| ≤ 6 / 5 := by
    rw [abs_of_pos (Real.log_pos (by norm_num))]
    have h4 : Real.log (9 / 8) ≤ 1 / 8 := by
      have := Real.log_le_sub_one_of_pos (show (0 : ℝ) < 9 / 8 by norm_num); linarith
    have e2 : 2 * Real.log 3 = 3 * Real.log 2 + Real.log (9 / 8) := by
      have a : Real.log (3 ^ 2) = Real.log (2 ^ 3 * (9 / 8)) := by norm_num
      rw [Real.log_pow, Real.log_mul (by norm_num) (by norm_num), Real.log_pow] at a
      push_cast at a; exact a
    linarith [Real.log_two_lt_d9]
  have e3 : |-A.log 3 - -Real.log 3| ≤ 6 / 5 * u := by
    rw [show -A.log 3 - -Real.log 3 = -(A.log 3 - Real.log 3) by ring, abs_neg]
    have := hA.log 3 (by norm_num)
    nlinarith
  have m1 : |-Real.log 3 + Real.log x| ≤ 6 / 5 + |Real.log x| := by
    have := abs_add_le (-Real.log 3) (Real.log x); rw [abs_neg] at this; linarith
  have s1 := hA.add_err e3 (hA.log_x hx) m1
  have t : Near (100 / 99 * u) A.tenth 0.1 := by
    refine hA.near (by norm_num) ?_
    have := hA.tenth
    norm_num at this ⊢; exact this
  have q := (hA.mul_near t (hA.pow_near hx 2)).abs_sub (by linarith)
  have q' : |A.mul A.tenth (A.pow x 2) - 0.1 * x ^ 2| ≤ 1 / 10 * u := by
    refine q.trans ?_
    have := mul_le_mul_of_nonneg_left x2 hu
    nlinarith
  have m2 : |-Real.log 3 + Real.log x + 0.1 * x ^ 2| ≤ 13 / 10 + |Real.log x| := by
    have := abs_add_le (-Real.log 3 + Real.log x) (0.1 * x ^ 2)
    rw [abs_of_nonneg (show (0 : ℝ) ≤ 0.1 * x ^ 2 by positivity)] at this; linarith
  have s2 := hA.add_err s1 q' m2
  unfold FlFun.i1smShort i1smShort bSize
  refine s2.trans ?_
  linarith

theorem i1smLong_err (hx : 0 < x) (hs : x < 1e-3) : |A.i1smLong x - i1smLong x| ≤ 4 * u * bSize x := by
  have hu := hA.u0
  have hL := abs_nonneg (Real.log x)
  have huL : 0 ≤ u * |Real.log x| := by positivity
  have hux0 : 0 ≤ u * x := by positivity
  have x2 : x ^ 2 ≤ 1 := by nlinarith
  have p4 : 0 ≤ x ^ 4 := by positivity
  have x4 : x ^ 4 ≤ 1 := by nlinarith [sq_nonneg x]
  have l3 : |Real.log 3| ≤ 2 := by
    rw [abs_of_pos (Real.log_pos (by norm_num))]
    have := Real.log_le_sub_one_of_pos (show (0 : ℝ) < 3 by norm_num); linarith
  have m : |-Real.log 3 + Real.log x + 0.1 * x ^ 2 - x ^ 4 / 700| ≤ 3 + |Real.log x| := by
    have h1 := abs_add_le (-Real.log 3) (Real.log x)
    rw [abs_neg] at h1
    have h2 := abs_add_le (-Real.log 3 + Real.log x) (0.1 * x ^ 2 - x ^ 4 / 700)
    have h3 : |0.1 * x ^ 2 - x ^ 4 / 700| ≤ 1 := by
      rw [abs_le]; constructor <;> nlinarith [sq_nonneg x]
    rw [show -Real.log 3 + Real.log x + 0.1 * x ^ 2 - x ^ 4 / 700 = -Real.log 3 + Real.log x + (0.1 * x ^ 2 - x ^ 4 / 700) by ring]
    linarith
  have h := hA.sub_err (hA.i1smShort_err hx hs) (hA.quot_err hx 4 (c := 700) (by norm_num)) m
  have := mul_le_mul_of_nonneg_left x4 hu
  rw [show A.i1smLong x = A.sub (A.i1smShort x) (A.div (A.pow x 4) 700) from rfl,
    show i1smLong x = i1smShort x - x ^ 4 / 700 from rfl]
  refine h.trans ?_
  unfold bSize
  linarith

end Spec.RelErr

end CasSph
