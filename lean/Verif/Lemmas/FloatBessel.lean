import Verif.Lemmas.Near
import Verif.Lemmas.Bessel

/-! # Rounding errors of `lnknu` and of the continued fraction -/

namespace CasSph

open Spec

theorem log_pih_abs : |Real.log (Real.pi * 0.5)| ≤ 3 / 5 := by
  have h1 := Real.pi_gt_three
  have h2 := Real.pi_lt_d2
  have p : 0 < Real.pi * 0.5 := by linarith
  rw [abs_of_nonneg (Real.log_nonneg (by linarith))]
  have := Real.log_le_sub_one_of_pos p
  linarith

/-- The size of the numbers that enter the orders 0 and 1. -/
noncomputable def bSize (x : ℝ) : ℝ := 4 + 2 * |Real.log x| + x

namespace Spec.RelErr

variable {A : FlFun} {u : ℝ} (hA : RelErr A u) {x : ℝ}

include hA

theorem lnPih_err : |A.lnPih - Real.log (Real.pi * 0.5)| ≤ 3 * u := by
  have h := hA.log_err (hA.mul_near hA.pi_near (Near.refl (a := 0.5) (by norm_num)))
  have := mul_le_mul_of_nonneg_left log_pih_abs hA.u0
  unfold FlFun.lnPih
  linarith [hA.u0]

theorem log_x (hx : 0 < x) : |A.log x - Real.log x| ≤ u * |Real.log x| := hA.log x hx

theorem lnk_zero (hx : 0 < x) : |A.lnk x 0 - lnk1 x 0| ≤ 2 * u * bSize x := by
  have hu := hA.u0
  have hL := abs_nonneg (Real.log x)
  have hp := log_pih_abs
  have huL : 0 ≤ u * |Real.log x| := by positivity
  have hux : 0 ≤ u * x := by positivity
  have m1 : |Real.log (Real.pi * 0.5) - Real.log x| ≤ 3 / 5 + |Real.log x| := by
    have := abs_sub (Real.log (Real.pi * 0.5)) (Real.log x); linarith
  have h1 := hA.sub_err hA.lnPih_err (hA.log_x hx) m1
  have m2 : |Real.log (Real.pi * 0.5) - Real.log x - x| ≤ 3 / 5 + |Real.log x| + x := by
    have := abs_sub (Real.log (Real.pi * 0.5) - Real.log x) x; rw [abs_of_pos hx] at this; linarith
  have h2 := hA.sub_err h1 (show |x - x| ≤ 0 by simp) m2
  unfold FlFun.lnk lnk1 bSize
  nlinarith

theorem lnk_one (hx : 0 < x) : |A.lnk x 1 - lnk1 x 1| ≤ 6 * u * bSize x := by
  have hu := hA.u0
  have hu1 := hA.u1
  have hL := abs_nonneg (Real.log x)
  have hp := log_pih_abs
  have huL : 0 ≤ u * |Real.log x| := by positivity
  have hux : 0 ≤ u * x := by positivity
  have h0 : |A.mul 2 (A.log x) - 2 * Real.log x| ≤ 403 / 100 * (u * |Real.log x|) := by
    have a1 := hA.mul 2 (A.log x)
    have a2 := hA.log x hx
    have a3 : |2 * A.log x - 2 * Real.log x| ≤ 2 * (u * |Real.log x|) := by
      rw [← mul_sub, abs_mul, abs_two]; linarith
    have a4 : |2 * A.log x| ≤ 2 * |Real.log x| + 2 * (u * |Real.log x|) := by
      have := abs_add_le (2 * A.log x - 2 * Real.log x) (2 * Real.log x)
      rw [sub_add_cancel, abs_mul 2 (Real.log x), abs_two] at this; linarith
    have := abs_add_le (A.mul 2 (A.log x) - 2 * A.log x) (2 * A.log x - 2 * Real.log x)
    rw [sub_add_sub_cancel] at this
    have := mul_le_mul_of_nonneg_left a4 hu
    nlinarith
  have m1 : |Real.log (Real.pi * 0.5) - 2 * Real.log x| ≤ 3 / 5 + 2 * |Real.log x| := by
    have := abs_sub (Real.log (Real.pi * 0.5)) (2 * Real.log x)
    rw [abs_mul, abs_two] at this; linarith
  have h1 := hA.sub_err hA.lnPih_err h0 m1
  have m2 : |Real.log (Real.pi * 0.5) - 2 * Real.log x - x| ≤ 3 / 5 + 2 * |Real.log x| + x := by
    have := abs_sub (Real.log (Real.pi * 0.5) - 2 * Real.log x) x; rw [abs_of_pos hx] at this; linarith
  have h2 := hA.sub_err h1 (show |x - x| ≤ 0 by simp) m2
  have l0 : 0 ≤ Real.log (x + 1) := Real.log_nonneg (by linarith)
  have l1 : Real.log (x + 1) ≤ x := by have := Real.log_le_sub_one_of_pos (show 0 < x + 1 by linarith); linarith
  have h3 := hA.log_err (hA.add_near (Near.refl hx) (Near.refl one_pos))
  rw [abs_of_nonneg l0] at h3
  have m3 : |Real.log (Real.pi * 0.5) - 2 * Real.log x - x + Real.log (x + 1)| ≤ 3 / 5 + 2 * |Real.log x| + x := by
    have a : |-x + Real.log (x + 1)| ≤ x := by rw [abs_le]; constructor <;> linarith
    have := abs_add_le (Real.log (Real.pi * 0.5) - 2 * Real.log x) (-x + Real.log (x + 1))
    rw [show Real.log (Real.pi * 0.5) - 2 * Real.log x + (-x + Real.log (x + 1)) =
      Real.log (Real.pi * 0.5) - 2 * Real.log x - x + Real.log (x + 1) by ring] at this
    linarith
  have h4 := hA.add_err h2 h3 m3
  have := mul_le_mul_of_nonneg_left l1 hu
  unfold FlFun.lnk lnk1 bSize
  nlinarith

/-- One step of the recursion. -/
theorem lnk_step (hx : 0 < x) {l : ℕ} {M w : ℝ} (hM : 4 ≤ M) (h0 : |lnk1 x l| ≤ M) (h1 : |lnk1 x (l + 1)| ≤ M)
    (h2 : |lnk1 x (l + 2)| ≤ M) (hw : w ≤ M / 4) (e0 : |A.lnk x l - lnk1 x l| ≤ w)
    (e1 : |A.lnk x (l + 1) - lnk1 x (l + 1)| ≤ w) :
    |A.lnk x (l + 2) - lnk1 x (l + 2)| ≤ w + 8 * u * M := by
  have hu := hA.u0
  have hu1 := hA.u1
  have huM : 0 ≤ u * M := by positivity
  have q0 : 0 < (2 * ((l + 2 : ℕ) : ℝ) - 1) / x := by
    apply div_pos _ hx; push_cast; linarith [(Nat.cast_nonneg l : (0 : ℝ) ≤ l)]
  rw [show A.lnk x (l + 2) = A.add (A.lnk x (l + 1)) (A.log (A.add (A.exp (A.sub (A.lnk x l) (A.lnk x (l + 1))))
      (A.div (2 * ((l + 2 : ℕ) : ℝ) - 1) x))) from rfl]
  have eT : lnk1 x (l + 2) = lnk1 x (l + 1) + Real.log (Real.exp (lnk1 x l - lnk1 x (l + 1)) +
      (2 * ((l + 2 : ℕ) : ℝ) - 1) / x) := rfl
  have hdiv := hA.div_near (Near.refl (show 0 < 2 * ((l + 2 : ℕ) : ℝ) - 1 by
    push_cast; linarith [(Nat.cast_nonneg l : (0 : ℝ) ≤ l)])) (Near.refl hx)
  generalize 2 * ((l + 2 : ℕ) : ℝ) - 1 = k at *
  generalize A.lnk x (l + 1) = a at *
  generalize A.lnk x l = b at *
  have hab : |b - a| ≤ 5 / 2 * M := by
    have s1 : |a| ≤ M + w := by
      have := abs_add_le (a - lnk1 x (l + 1)) (lnk1 x (l + 1)); rw [sub_add_cancel] at this; linarith
    have s2 : |b| ≤ M + w := by
      have := abs_add_le (b - lnk1 x l) (lnk1 x l); rw [sub_add_cancel] at this; linarith
    have := abs_sub b a; linarith
  have hd : |A.sub b a - (b - a)| ≤ u * (5 / 2 * M) :=
    (hA.sub b a).trans (mul_le_mul_of_nonneg_left hab hu)
  have hs := hA.add_near (hA.exp_near hd) (hdiv.mono (by linarith : 0 + 0 + 100 / 99 * u ≤ u * (5 / 2 * M) + 100 / 99 * u))
  have hlip := lnk_step_lip q0 e1 e0
  rw [← eT] at hlip
  obtain ⟨G, hG⟩ : ∃ G, G = Real.log (Real.exp (b - a) + k / x) := ⟨_, rfl⟩
  have hg := hA.log_err hs
  rw [← hG] at hlip hg
  have haG : |a + G| ≤ M + w := by
    have := abs_add_le (a + G - lnk1 x (l + 2)) (lnk1 x (l + 2)); rw [sub_add_cancel] at this; linarith
  have hGa : |G| ≤ 5 / 2 * M := by
    have s1 : |a| ≤ M + w := by
      have := abs_add_le (a - lnk1 x (l + 1)) (lnk1 x (l + 1)); rw [sub_add_cancel] at this; linarith
    have := abs_sub (a + G) a
    rw [add_sub_cancel_left] at this; linarith
  have hf := hA.add_err (show |a - a| ≤ 0 by simp) hg haG
  have := abs_add_le (A.add a (A.log (A.add (A.exp (A.sub b a)) (A.div k x))) - (a + G)) (a + G - lnk1 x (l + 2))
  rw [sub_add_sub_cancel] at this
  have p1 := mul_le_mul_of_nonneg_left hGa hu
  have p2 := mul_le_mul_of_nonneg_left hw hu
  have p3 := mul_le_mul_of_nonneg_left hM hu
  linarith

/-- The error grows at most linearly with the order. -/
theorem lnk_err (hx : 0 < x) {n : ℕ} {M : ℝ} (hM : bSize x ≤ M) (hT : ∀ j ≤ n, |lnk1 x j| ≤ M)
    (hn : 32 * (n + 1) * u ≤ 1) : ∀ l ≤ n, |A.lnk x l - lnk1 x l| ≤ 8 * (l + 1) * u * M := by
  have hu := hA.u0
  have h4 : 4 ≤ M := by
    unfold bSize at hM; linarith [abs_nonneg (Real.log x)]
  have huM : 0 ≤ u * M := by positivity
  intro l
  induction l using Nat.strong_induction_on with
  | _ l ih =>
    intro hl
    match l with
    | 0 =>
      have := hA.lnk_zero hx
      have := mul_le_mul_of_nonneg_left hM hu
      push_cast; nlinarith
    | 1 =>
      have := hA.lnk_one hx
      have := mul_le_mul_of_nonneg_left hM hu
      push_cast; nlinarith
    | l + 2 =>
      have e0 := ih l (by omega) (by omega)
      have e1 := ih (l + 1) (by omega) (by omega)
      have hl' : ((l : ℝ) + 2) ≤ n := by exact_mod_cast hl
      have hw : 8 * ((l : ℝ) + 2) * u * M ≤ M / 4 := by
        have : 8 * ((l : ℝ) + 2) * u ≤ 1 / 4 := by nlinarith
        nlinarith
      push_cast at e1 ⊢
      have := hA.lnk_step hx h4 (hT l (by omega)) (hT (l + 1) (by omega)) (hT (l + 2) hl) hw
        (e0.trans (by nlinarith)) (e1.trans (by nlinarith))
      nlinarith

end Spec.RelErr

/-- A bound of the logarithms that `lnknu` computes. -/
theorem lnk1_abs_le {x : ℝ} (hx : 0 < x) (l : ℕ) : |lnk1 x l| ≤ bSize x + l * Real.log (1 + 2 * l / x) := by
  have lo : lnk1 x 0 ≤ lnk1 x l := by
    rw [lnk1_eq hx, lnk1_eq hx]
    exact Real.log_le_log (sphK_pos 0 hx) (sphK_mono (Nat.zero_le l) hx)
  have step : ∀ j, lnk1 x (j + 1) ≤ lnk1 x j + Real.log (1 + (2 * j + 1) / x) := by
    intro j
    have pj : 0 < 1 + (2 * (j : ℝ) + 1) / x := by positivity
    rw [lnk1_eq hx, lnk1_eq hx, ← Real.log_mul (sphK_pos j hx).ne' pj.ne']
    refine Real.log_le_log (sphK_pos _ hx) ?_
    cases j with
    | zero =>
      rw [sphK_zero, sphK_one hx.ne']
      apply le_of_eq
      push_cast; field_simp; ring
    | succ j =>
      rw [sphK_rec j hx.ne']
      have := sphK_lt_succ j hx
      push_cast
      have e : sphK (j + 1) x * (1 + (2 * ((j : ℝ) + 1) + 1) / x) = sphK (j + 1) x + (2 * j + 3) / x * sphK (j + 1) x := by ring
      rw [e]; linarith
  have up : ∀ j ≤ l, lnk1 x j ≤ lnk1 x 0 + j * Real.log (1 + 2 * l / x) := by
    intro j
    induction j with
    | zero => simp
    | succ j ih =>
      intro hj
      have h1 := ih (by omega)
      have hj' : (j : ℝ) + 1 ≤ l := by exact_mod_cast hj
      have : Real.log (1 + (2 * j + 1) / x) ≤ Real.log (1 + 2 * l / x) := by
        apply Real.log_le_log (by positivity)
        have : (2 * (j : ℝ) + 1) / x ≤ 2 * l / x := by gcongr; linarith
        linarith
      push_cast
      linarith [step j]
  have h0 : |lnk1 x 0| ≤ bSize x := by
    unfold lnk1 bSize
    have h1 := abs_sub (Real.log (Real.pi * 0.5) - Real.log x) x
    have h2 := abs_sub (Real.log (Real.pi * 0.5)) (Real.log x)
    rw [abs_of_pos hx] at h1
    linarith [log_pih_abs, abs_nonneg (Real.log x)]
  have hL : 0 ≤ l * Real.log (1 + 2 * l / x) := by
    apply mul_nonneg (Nat.cast_nonneg _) (Real.log_nonneg _)
    have : 0 ≤ 2 * (l : ℝ) / x := by positivity
    linarith
  obtain ⟨a, b⟩ := abs_le.1 h0
  have := up l le_rfl
  rw [abs_le]; constructor <;> linarith

end CasSph
