import Verif.Model.Bessel
import Verif.Lemmas.BesselSpec
import Mathlib.Analysis.SpecialFunctions.Log.Deriv
import Mathlib.Tactic.IntervalCases

/-! # Auxiliary lemmas for `Model/Bessel` -/

namespace CasSph

open Spec Nat

theorem lnk1_eq {x : ℝ} (hx : 0 < x) (l : ℕ) : lnk1 x l = Real.log (sphK l x) := by
  induction l using Nat.twoStepInduction with
  | zero =>
    have hp := Real.pi_pos
    rw [sphK_zero, lnk1, show Real.pi * 0.5 = Real.pi / 2 by ring, Real.log_div (by positivity) hx.ne',
      Real.log_mul (by positivity) (by positivity), Real.log_exp]
    ring
  | one =>
    have hp := Real.pi_pos
    have h1 : Real.log (Real.pi / 2 * Real.exp (-x) * (x + 1) / x ^ 2) =
        Real.log (Real.pi / 2) + -x + Real.log (x + 1) - (2 : ℕ) * Real.log x := by
      rw [Real.log_div (by positivity) (by positivity), Real.log_mul (by positivity) (by positivity),
        Real.log_mul (by positivity) (by positivity), Real.log_exp, Real.log_pow]
    rw [sphK_one hx.ne', lnk1, h1, show Real.pi * 0.5 = Real.pi / 2 by ring]
    push_cast; ring
  | more l ih1 ih2 =>
    have h1 := sphK_pos l hx
    have h2 := sphK_pos (l + 1) hx
    have h3 : (0 : ℝ) < (2 * ((l + 2 : ℕ) : ℝ) - 1) / x := by
      push_cast
      have : (0 : ℝ) ≤ l := Nat.cast_nonneg l
      refine div_pos (by linarith) hx
    have h4 : sphK l x / sphK (l + 1) x + (2 * ((l + 2 : ℕ) : ℝ) - 1) / x ≠ 0 :=
      (add_pos (div_pos h1 h2) h3).ne'
    rw [lnk1, ih1, ih2, Real.exp_sub, Real.exp_log h1, Real.exp_log h2, ← Real.log_mul h2.ne' h4]
    congr 1
    rw [sphK_rec l hx.ne']
    push_cast
    field_simp
    ring

theorem exp_lnk1 {x : ℝ} (hx : 0 < x) (l : ℕ) : Real.exp (lnk1 x l) = sphK l x := by
  rw [lnk1_eq hx, Real.exp_log (sphK_pos l hx)]

theorem i0lg_eq {x : ℝ} (hx : 0 < x) : 0 < 1 - Real.exp (-2 * x) ∧ i0lg x = Real.log (sphI 0 x) := by
  have h1 : 0 < 1 - Real.exp (-2 * x) := by
    have : Real.exp (-2 * x) < 1 := by rw [Real.exp_lt_one_iff]; linarith
    linarith
  refine ⟨h1, ?_⟩
  have e : sphI 0 x = (1 - Real.exp (-2 * x)) * Real.exp x / (2 * x) := by
    rw [sphI_zero hx.ne', Real.sinh_eq]
    have : Real.exp (-2 * x) * Real.exp x = Real.exp (-x) := by rw [← Real.exp_add]; ring_nf
    rw [sub_mul, this, one_mul]
    field_simp
  rw [e, Real.log_div (by positivity) (by positivity), Real.log_mul h1.ne' (by positivity), Real.log_exp, i0lg]
  ring

theorem i1lg_eq {x : ℝ} (hx : 0 < x) :
    0 < Real.exp (-2 * x) * (x + 1) + x - 1 ∧ i1lg x = Real.log (sphI 1 x) := by
  have e : sphI 1 x = (Real.exp (-2 * x) * (x + 1) + x - 1) * Real.exp x / (2 * x * x) := by
    rw [sphI_one hx.ne', Real.sinh_eq, Real.cosh_eq]
    have : Real.exp (-2 * x) * Real.exp x = Real.exp (-x) := by rw [← Real.exp_add]; ring_nf
    rw [show (Real.exp (-2 * x) * (x + 1) + x - 1) * Real.exp x =
      Real.exp (-2 * x) * Real.exp x * (x + 1) + (x - 1) * Real.exp x by ring, this]
    field_simp
    ring
  have h1 : 0 < Real.exp (-2 * x) * (x + 1) + x - 1 := by
    have := sphI_pos 1 hx
    rw [e] at this
    have h2 : 0 < (Real.exp (-2 * x) * (x + 1) + x - 1) * Real.exp x := by
      have := (div_pos_iff_of_pos_right (by positivity : (0 : ℝ) < 2 * x * x)).mp this
      exact this
    exact (mul_pos_iff_of_pos_right (Real.exp_pos x)).mp h2
  refine ⟨h1, ?_⟩
  rw [e, Real.log_div (by positivity) (by positivity), Real.log_mul h1.ne' (by positivity), Real.log_exp,
    Real.log_mul (by positivity) (by positivity), i1lg]
  ring

/-! ## Continued fraction -/

/-- Partial denominators `(2l+1+2n)/x` -/
noncomputable def cfA (l : ℕ) (x : ℝ) (n : ℕ) : ℝ := (2 * l + 1 + 2 * n) / x

/-- The continued fraction with `N` terms starting at the `(n+1)`-st partial denominator. -/
noncomputable def cfF (l : ℕ) (x : ℝ) (N n : ℕ) : ℝ := fraction ((List.range' (n + 1) N).map (cfA l x))

theorem fnu1_eq (N l : ℕ) (x : ℝ) : fnu1 N x ((l : ℝ) + 0.5) = cfF l x N 0 := by
  unfold fnu1 cfF
  congr 2
  funext n
  unfold cfA
  congr 1
  ring

theorem cfF_succ (l : ℕ) (x : ℝ) (N n : ℕ) : cfF l x (N + 2) n = cfA l x (n + 1) + 1 / cfF l x (N + 1) (n + 1) := by
  unfold cfF
  rw [List.range'_succ, List.range'_succ, List.map_cons, List.map_cons, fraction]

theorem cfA_pos (l : ℕ) {x : ℝ} (hx : 0 < x) (n : ℕ) : 0 < cfA l x n := by unfold cfA; positivity

theorem cfF_ge (l : ℕ) {x : ℝ} (hx : 0 < x) (N : ℕ) : ∀ n, cfA l x (n + 1) ≤ cfF l x (N + 1) n := by
  induction N with
  | zero => intro n; simp [cfF, fraction]
  | succ N ih =>
    intro n
    rw [cfF_succ]
    have := ih (n + 1)
    have h2 := cfA_pos l hx (n + 1 + 1)
    have : 0 < cfF l x (N + 1) (n + 1) := lt_of_lt_of_le h2 this
    have : 0 < 1 / cfF l x (N + 1) (n + 1) := by positivity
    linarith

/-- True ratio. -/
noncomputable def cfT (l : ℕ) (x : ℝ) (n : ℕ) : ℝ := sphI (l + n) x / sphI (l + n + 1) x

theorem cfT_rec (l : ℕ) {x : ℝ} (hx : 0 < x) (n : ℕ) : cfT l x n = cfA l x (n + 1) + 1 / cfT l x (n + 1) := by
  unfold cfT cfA
  have h0 := sphI_pos (l + n + 1) hx
  have h1 := sphI_pos (l + n + 2) hx
  have := sphI_rec (l + n) hx.ne'
  rw [show l + (n + 1) = l + n + 1 by omega, one_div_div, show l + n + 1 + 1 = l + n + 2 by omega, this]
  push_cast
  field_simp
  ring

theorem cfT_pos (l : ℕ) {x : ℝ} (hx : 0 < x) (n : ℕ) : 0 < cfT l x n :=
  div_pos (sphI_pos _ hx) (sphI_pos _ hx)

theorem cfT_ge (l : ℕ) {x : ℝ} (hx : 0 < x) (n : ℕ) : cfA l x (n + 1) ≤ cfT l x n := by
  rw [cfT_rec l hx]
  have := cfT_pos l hx (n + 1)
  have : 0 < 1 / cfT l x (n + 1) := by positivity
  linarith

/-- Signed error of the truncated fraction. -/
theorem cf_error (l : ℕ) {x : ℝ} (hx : 0 < x) (N : ℕ) : ∀ n,
    0 < (-1) ^ (N + 1) * (cfF l x (N + 1) n - cfT l x n) ∧
    (-1) ^ (N + 1) * (cfF l x (N + 1) n - cfT l x n) ≤
      1 / ((∏ j ∈ Finset.range N, cfA l x (n + j + 2) ^ 2) * cfA l x (n + N + 2)) := by
  induction N with
  | zero =>
    intro n
    have h := cfT_rec l hx n
    have h1 := cfT_pos l hx (n + 1)
    have h2 := cfT_ge l hx (n + 1)
    have h3 := cfA_pos l hx (n + 1 + 1)
    have e : (-1 : ℝ) ^ (0 + 1) * (cfF l x (0 + 1) n - cfT l x n) = 1 / cfT l x (n + 1) := by
      rw [h]; simp [cfF, fraction]
    rw [e]
    refine ⟨by positivity, ?_⟩
    simp only [Finset.range_zero, Finset.prod_empty, one_mul]
    exact one_div_le_one_div_of_le h3 h2
  | succ N ih =>
    intro n
    obtain ⟨i1, i2⟩ := ih (n + 1)
    have hT := cfT_pos l hx (n + 1)
    have hTge := cfT_ge l hx (n + 1)
    have hA := cfA_pos l hx (n + 1 + 1)
    have hFge := cfF_ge l hx N (n + 1)
    have hF : 0 < cfF l x (N + 1) (n + 1) := lt_of_lt_of_le hA hFge
    have e : (-1 : ℝ) ^ (N + 1 + 1) * (cfF l x (N + 1 + 1) n - cfT l x n) =
        ((-1) ^ (N + 1) * (cfF l x (N + 1) (n + 1) - cfT l x (n + 1))) / (cfF l x (N + 1) (n + 1) * cfT l x (n + 1)) := by
      rw [show N + 1 + 1 = N + 2 by rfl, cfF_succ, cfT_rec l hx n]
      field_simp
      ring
    rw [e]
    refine ⟨by positivity, ?_⟩
    calc _ ≤ 1 / ((∏ j ∈ Finset.range N, cfA l x (n + 1 + j + 2) ^ 2) * cfA l x (n + 1 + N + 2)) /
          (cfA l x (n + 1 + 1) * cfA l x (n + 1 + 1)) := by
          refine div_le_div₀ ?_ i2 (by positivity) (mul_le_mul hFge hTge hA.le hF.le)
          exact le_trans i1.le i2
      _ = _ := by
          rw [Finset.prod_range_succ', div_div]
          congr 1
          have : ∀ j, n + (j + 1) + 2 = n + 1 + j + 2 := fun j => by omega
          simp only [this]
          rw [show n + 1 + N + 2 = n + (N + 1) + 2 by omega, show n + 1 + 1 = n + 0 + 2 by omega]
          ring

/-! ## Series for small arguments -/

theorem iTerm_tail {l : ℕ} {x : ℝ} (hx : 0 < x) (hx1 : x ^ 2 ≤ 1 / 100) (N : ℕ) :
    0 ≤ sphI l x - ∑ n ∈ Finset.range N, iTerm l x n ∧
    sphI l x - ∑ n ∈ Finset.range N, iTerm l x n ≤ 100 / 99 * iTerm l x N := by
  have h' := (hasSum_nat_add_iff' N).mpr (sphI_hasSum l x)
  have hpos : ∀ n, 0 < iTerm l x n := by
    intro n; unfold iTerm; have := dfac_pos (2 * (l + n) + 1); positivity
  have hstep : ∀ n, iTerm l x (n + 1) ≤ 1 / 100 * iTerm l x n := by
    intro n
    unfold iTerm
    have h1 := dfac_pos (2 * (l + n) + 1)
    rw [show 2 * (l + (n + 1)) + 1 = 2 * (l + n) + 1 + 2 by omega, Nat.doubleFactorial_add_two, Nat.factorial_succ,
      show l + 2 * (n + 1) = l + 2 * n + 2 by omega, pow_add x _ 2, pow_succ 2 n]
    push_cast
    rw [div_le_iff₀ (by positivity)]
    have e : 1 / 100 * (x ^ (l + 2 * n) / (2 ^ n * (n ! : ℝ) * ((2 * (l + n) + 1)‼ : ℝ))) *
        (2 ^ n * 2 * (((n : ℝ) + 1) * (n ! : ℝ)) * ((2 * ((l : ℝ) + n) + 1 + 2) * ((2 * (l + n) + 1)‼ : ℝ))) =
        x ^ (l + 2 * n) * (1 / 100 * (2 * (n + 1) * (2 * (l + n) + 3))) := by
      have h4 : (n ! : ℝ) ≠ 0 := by positivity
      field_simp
      ring
    rw [e]
    refine mul_le_mul_of_nonneg_left ?_ (by positivity)
    have hl : (0 : ℝ) ≤ l := Nat.cast_nonneg l
    have hn : (0 : ℝ) ≤ n := Nat.cast_nonneg n
    nlinarith [mul_nonneg hl hn, mul_nonneg hn hn]
  have hgeo : ∀ n, iTerm l x (n + N) ≤ iTerm l x N * (1 / 100) ^ n := by
    intro n
    induction n with
    | zero => simp
    | succ n ih =>
      rw [show n + 1 + N = n + N + 1 by omega, pow_succ]
      have := hstep (n + N)
      linarith
  refine ⟨h'.nonneg fun n => (hpos _).le, ?_⟩
  have hg := (hasSum_geometric_of_lt_one (r := (1 / 100 : ℝ)) (by norm_num) (by norm_num)).mul_left (iTerm l x N)
  have := hasSum_le hgeo h' hg
  refine this.trans (le_of_eq ?_)
  norm_num
  ring

theorem sphI0_small {x : ℝ} (hx : 0 < x) (hx1 : x < 1e-3) : ∃ s : ℝ, 0 ≤ s ∧ s ≤ 1 / 300000 ∧
    sphI 0 x = 1 + (x ^ 2 / 6 + x ^ 4 / 120 + x ^ 6 / 5040 + s * x ^ 8) := by
  have h := iTerm_tail (l := 0) hx (by norm_num at hx1; nlinarith) 4
  have e0 : iTerm 0 x 0 = 1 := by simp [iTerm]
  have e1 : iTerm 0 x 1 = x ^ 2 / 6 := by simp [iTerm, Nat.factorial, Nat.doubleFactorial]; ring
  have e2 : iTerm 0 x 2 = x ^ 4 / 120 := by simp [iTerm, Nat.factorial, Nat.doubleFactorial]; ring
  have e3 : iTerm 0 x 3 = x ^ 6 / 5040 := by simp [iTerm, Nat.factorial, Nat.doubleFactorial]; ring
  have e4 : iTerm 0 x 4 = x ^ 8 / 362880 := by simp [iTerm, Nat.factorial, Nat.doubleFactorial]; ring
  simp only [Finset.sum_range_succ, Finset.sum_range_zero, e0, e1, e2, e3, e4] at h
  have h8 : 0 < x ^ 8 := by positivity
  refine ⟨(sphI 0 x - (1 + x ^ 2 / 6 + x ^ 4 / 120 + x ^ 6 / 5040)) / x ^ 8, div_nonneg (by linarith) h8.le, ?_, ?_⟩
  · rw [div_le_iff₀ h8]; linarith
  · rw [div_mul_cancel₀ _ h8.ne']; ring

theorem sphI1_small {x : ℝ} (hx : 0 < x) (hx1 : x < 1e-3) : ∃ s : ℝ, 0 ≤ s ∧ s ≤ 1 / 14000 ∧
    sphI 1 x = x / 3 * (1 + (x ^ 2 / 10 + x ^ 4 / 280 + s * x ^ 6)) := by
  have h := iTerm_tail (l := 1) hx (by norm_num at hx1; nlinarith) 3
  have e0 : iTerm 1 x 0 = x / 3 := by simp [iTerm, Nat.doubleFactorial]
  have e1 : iTerm 1 x 1 = x ^ 3 / 30 := by simp [iTerm, Nat.factorial, Nat.doubleFactorial]; ring
  have e2 : iTerm 1 x 2 = x ^ 5 / 840 := by simp [iTerm, Nat.factorial, Nat.doubleFactorial]; ring
  have e3 : iTerm 1 x 3 = x ^ 7 / 45360 := by simp [iTerm, Nat.factorial, Nat.doubleFactorial]; ring
  simp only [Finset.sum_range_succ, Finset.sum_range_zero, e0, e1, e2, e3] at h
  have h8 : 0 < x ^ 7 := by positivity
  refine ⟨3 * (sphI 1 x - (x / 3 + x ^ 3 / 30 + x ^ 5 / 840)) / x ^ 7, div_nonneg (by linarith) h8.le, ?_, ?_⟩
  · rw [div_le_iff₀ h8]; linarith
  · field_simp; ring

theorem log_one_add_bound {u : ℝ} (h0 : 0 ≤ u) (h1 : u ≤ 1 / 100) :
    |Real.log (1 + u) - (u - u ^ 2 / 2)| ≤ 100 / 99 * u ^ 3 ∧
    |Real.log (1 + u) - (u - u ^ 2 / 2 + u ^ 3 / 3)| ≤ 100 / 99 * u ^ 4 := by
  have hu : |(-u)| < 1 := by rw [abs_neg, abs_of_nonneg h0]; linarith
  have key : ∀ n : ℕ, |(-u)| ^ (n + 1) / (1 - |(-u)|) ≤ 100 / 99 * u ^ (n + 1) := by
    intro n
    rw [abs_neg, abs_of_nonneg h0, div_le_iff₀ (by linarith)]
    have : (0 : ℝ) ≤ u ^ (n + 1) := by positivity
    nlinarith
  constructor
  · have := (Real.abs_log_sub_add_sum_range_le hu 2).trans (key 2)
    simp only [Finset.sum_range_succ, Finset.sum_range_zero] at this
    refine le_trans (le_of_eq ?_) this
    congr 1
    push_cast
    rw [sub_neg_eq_add]
    ring
  · have := (Real.abs_log_sub_add_sum_range_le hu 3).trans (key 3)
    simp only [Finset.sum_range_succ, Finset.sum_range_zero] at this
    refine le_trans (le_of_eq ?_) this
    congr 1
    push_cast
    rw [sub_neg_eq_add]
    ring

end CasSph
