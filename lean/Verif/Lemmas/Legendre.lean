import Verif.Spec.Legendre
import Mathlib.Tactic.LinearCombination
import Mathlib.Tactic.FieldSimp
import Mathlib.MeasureTheory.Integral.IntervalIntegral.FundThmCalculus
import Mathlib.Analysis.Calculus.Deriv.Polynomial
import Mathlib.Topology.Algebra.Polynomial

/-! # Legendre polynomials: recursions, differential equation, orthogonality -/

namespace CasSph

open Polynomial Spec

/-- abbreviation for the derivative -/
local notation "D" => (derivative (R := ℝ))

theorem legendre_zero : legendre 0 = 1 := by simp only [legendre]
theorem legendre_one : legendre 1 = X := by simp only [legendre]

theorem bonnet (n : ℕ) : C ((n : ℝ) + 2) * legendre (n + 2) =
    C (2 * (n : ℝ) + 3) * X * legendre (n + 1) - C ((n : ℝ) + 1) * legendre n := by
  conv_lhs => rw [legendre]
  rw [← mul_assoc, ← C_mul, mul_one_div_cancel (by positivity), C_1, one_mul]

/-- `(n+2) ≠ 0` cancels in the polynomial ring. -/
theorem C_cancel {a : ℝ} (ha : a ≠ 0) {p q : ℝ[X]} (h : C a * p = C a * q) : p = q :=
  mul_left_cancel₀ (C_ne_zero.mpr ha) h

theorem legendre_deriv (n : ℕ) :
    D (legendre (n + 1)) = X * D (legendre n) + C ((n : ℝ) + 1) * legendre n ∧
    X * D (legendre (n + 1)) - D (legendre n) = C ((n : ℝ) + 1) * legendre (n + 1) := by
  induction n with
  | zero => simp [legendre_zero, legendre_one]
  | succ n ih =>
    obtain ⟨h1, h2⟩ := ih
    have hb := bonnet n
    have hd := congrArg D hb
    simp only [derivative_mul, derivative_sub, derivative_C, derivative_X, zero_mul, zero_add, mul_one] at hd
    have e1 : D (legendre (n + 1 + 1)) = X * D (legendre (n + 1)) + C (((n + 1 : ℕ) : ℝ) + 1) * legendre (n + 1) := by
      refine C_cancel (a := (n : ℝ) + 2) (by positivity) ?_
      push_cast
      simp only [C_add, C_mul] at *
      simp only [map_ofNat, map_one] at *
      linear_combination hd + (C (n : ℝ) + 1) * h2
    refine ⟨e1, ?_⟩
    refine C_cancel (a := (n : ℝ) + 2) (by positivity) ?_
    push_cast at *
    rw [show (n : ℝ) + 1 + 1 = (n : ℝ) + 2 by ring] at *
    rw [hb, e1]
    simp only [C_add, C_mul] at *
    simp only [map_ofNat, map_one] at *
    linear_combination (C (n : ℝ) + 2) * X * h2 - (C (n : ℝ) + 2) * h1

theorem legendre_sum_rule (n : ℕ) : D (legendre (n + 2)) - D (legendre n) = C (2 * (n : ℝ) + 3) * legendre (n + 1) := by
  have h1 := (legendre_deriv (n + 1)).1
  have h2 := (legendre_deriv n).2
  push_cast at h1
  simp only [C_add, C_mul, map_ofNat, map_one] at *
  linear_combination h1 + h2

theorem legendre_w_deriv (n : ℕ) : (1 - X ^ 2) * D (legendre (n + 1)) =
    C ((n : ℝ) + 1) * (legendre n - X * legendre (n + 1)) := by
  obtain ⟨h1, h2⟩ := legendre_deriv n
  linear_combination h1 - X * h2

/-- Legendre's operator `d/dx (1-x²) d/dx` -/
noncomputable def legL (p : ℝ[X]) : ℝ[X] := D ((1 - X ^ 2) * D p)

theorem legL_add (p q : ℝ[X]) : legL (p + q) = legL p + legL q := by
  unfold legL; rw [map_add, mul_add, map_add]

theorem legL_sub (p q : ℝ[X]) : legL (p - q) = legL p - legL q := by
  unfold legL; rw [map_sub, mul_sub, map_sub]

theorem legL_C_mul (a : ℝ) (p : ℝ[X]) : legL (C a * p) = C a * legL p := by
  unfold legL; rw [derivative_C_mul, mul_left_comm, derivative_C_mul]

theorem legendre_ode (n : ℕ) : legL (legendre n) = -C ((n : ℝ) * (n + 1)) * legendre n := by
  unfold legL
  cases n with
  | zero => simp [legendre_zero]
  | succ n =>
    rw [legendre_w_deriv, derivative_C_mul, map_sub, derivative_mul, derivative_X, one_mul]
    have h2 := (legendre_deriv n).2
    push_cast
    simp only [C_add, C_mul, map_one] at *
    linear_combination -(C (n : ℝ) + 1) * h2

theorem legendre_eval_one (n : ℕ) : (legendre n).eval 1 = 1 := by
  induction n using Nat.twoStepInduction with
  | zero => simp [legendre_zero]
  | one => simp [legendre_one]
  | more n h1 h2 =>
    have h := congrArg (eval 1) (bonnet n)
    simp only [eval_mul, eval_sub, eval_C, eval_X, h1, h2] at h
    have hn : (n : ℝ) + 2 ≠ 0 := by positivity
    refine mul_left_cancel₀ hn ?_
    linear_combination h

theorem legendre_comp_neg (n : ℕ) : (legendre n).comp (-X) = C ((-1) ^ n) * legendre n := by
  induction n using Nat.twoStepInduction with
  | zero => simp [legendre_zero]
  | one => simp [legendre_one]
  | more n h1 h2 =>
    have h := congrArg (fun p : ℝ[X] => p.comp (-X)) (bonnet n)
    simp only [mul_comp, sub_comp, C_comp, X_comp, h1, h2] at h
    refine C_cancel (a := (n : ℝ) + 2) (by positivity) ?_
    rw [h, mul_left_comm (C ((n : ℝ) + 2)), bonnet]
    simp only [pow_succ, C_mul, C_neg, C_1]
    ring

theorem legendre_eval_neg (n : ℕ) (x : ℝ) : (legendre n).eval (-x) = (-1) ^ n * (legendre n).eval x := by
  have h := congrArg (eval x) (legendre_comp_neg n)
  simpa [eval_comp] using h

theorem legendre_eval_neg_one (n : ℕ) : (legendre n).eval (-1) = (-1) ^ n := by
  rw [legendre_eval_neg, legendre_eval_one, mul_one]

/-- the leading coefficient of the Legendre polynomial -/
noncomputable def legLead (n : ℕ) : ℝ := (2 * n).factorial / (2 ^ n * (n.factorial : ℝ) ^ 2)

theorem legLead_pos (n : ℕ) : 0 < legLead n := by unfold legLead; positivity

theorem legLead_succ (n : ℕ) : ((n : ℝ) + 1) * legLead (n + 1) = (2 * (n : ℝ) + 1) * legLead n := by
  unfold legLead
  rw [show 2 * (n + 1) = 2 * n + 1 + 1 by ring, Nat.factorial_succ, Nat.factorial_succ, Nat.factorial_succ]
  push_cast
  have : (n.factorial : ℝ) ≠ 0 := by positivity
  field_simp
  ring

theorem legendre_degree (n : ℕ) : (legendre n).natDegree ≤ n ∧ (legendre n).coeff n = legLead n := by
  induction n using Nat.twoStepInduction with
  | zero => simp [legendre_zero, legLead]
  | one => simp [legendre_one, legLead, Nat.factorial]
  | more n h1 h2 =>
    have hb := bonnet n
    have hn : (n : ℝ) + 2 ≠ 0 := by positivity
    constructor
    · rw [← natDegree_C_mul hn, hb]
      refine (natDegree_sub_le _ _).trans (max_le ?_ ?_)
      · rw [mul_assoc]
        refine (natDegree_C_mul_le _ _).trans ?_
        refine natDegree_mul_le.trans ?_
        rw [natDegree_X]
        omega
      · exact (natDegree_C_mul_le _ _).trans (by omega)
    · have h := congrArg (fun p : ℝ[X] => p.coeff (n + 2)) hb
      simp only [coeff_sub, mul_assoc, coeff_C_mul] at h
      rw [show n + 2 = (n + 1) + 1 by ring, coeff_X_mul, h2.2,
        coeff_eq_zero_of_natDegree_lt (p := legendre n) (by omega)] at h
      have hs := legLead_succ (n + 1)
      push_cast at hs
      refine mul_left_cancel₀ hn ?_
      rw [show (n : ℝ) + 2 = (n : ℝ) + 1 + 1 by ring] at *
      rw [hs]
      simp only [mul_zero, sub_zero] at h
      rw [h]; ring

/-! ## Expansion, integrals -/

/-- every polynomial of degree below `N` is a combination of the first `N` Legendre polynomials -/
theorem legendre_span (N : ℕ) : ∀ g : ℝ[X], (∀ k, N ≤ k → g.coeff k = 0) →
    ∃ a : ℕ → ℝ, g = ∑ k ∈ Finset.range N, C (a k) * legendre k := by
  induction N with
  | zero =>
    intro g hg
    exact ⟨0, by rw [Finset.sum_range_zero]; ext k; simp [hg k (Nat.zero_le _)]⟩
  | succ N ih =>
    intro g hg
    set c : ℝ := g.coeff N / legLead N
    obtain ⟨a, ha⟩ := ih (g - C c * legendre N) (by
      intro k hk
      rw [coeff_sub, coeff_C_mul]
      rcases hk.eq_or_lt with rfl | hk
      · rw [(legendre_degree N).2, div_mul_cancel₀ _ (legLead_pos N).ne', sub_self]
      · rw [hg k hk, coeff_eq_zero_of_natDegree_lt ((legendre_degree N).1.trans_lt hk), mul_zero, sub_zero])
    refine ⟨fun k => if k = N then c else a k, ?_⟩
    rw [Finset.sum_range_succ]
    simp only [if_true]
    rw [← sub_eq_iff_eq_add, ha]
    refine Finset.sum_congr rfl fun k hk => ?_
    simp only [if_neg (Finset.mem_range.mp hk).ne]

/-- the integral over `[-1, 1]` -/
noncomputable def pint (p : ℝ[X]) : ℝ := ∫ x in (-1 : ℝ)..1, p.eval x

theorem pint_ii (p : ℝ[X]) : IntervalIntegrable (fun x => p.eval x) MeasureTheory.volume (-1) 1 :=
  p.continuous.intervalIntegrable _ _

theorem pint_add (p q : ℝ[X]) : pint (p + q) = pint p + pint q := by
  unfold pint; simp only [eval_add]; exact intervalIntegral.integral_add (pint_ii p) (pint_ii q)

theorem pint_sub (p q : ℝ[X]) : pint (p - q) = pint p - pint q := by
  unfold pint; simp only [eval_sub]; exact intervalIntegral.integral_sub (pint_ii p) (pint_ii q)

theorem pint_neg (p : ℝ[X]) : pint (-p) = -pint p := by
  unfold pint; simp only [eval_neg]; exact intervalIntegral.integral_neg

theorem pint_C_mul (a : ℝ) (p : ℝ[X]) : pint (C a * p) = a * pint p := by
  unfold pint; simp only [eval_mul, eval_C]; exact intervalIntegral.integral_const_mul a _

theorem pint_zero : pint 0 = 0 := by simp [pint]

theorem pint_sum {ι : Type} (s : Finset ι) (f : ι → ℝ[X]) : pint (∑ i ∈ s, f i) = ∑ i ∈ s, pint (f i) := by
  classical
  induction s using Finset.induction_on with
  | empty => simp [pint_zero]
  | insert a s ha ih => rw [Finset.sum_insert ha, pint_add, ih, Finset.sum_insert ha]

theorem pint_derivative (p : ℝ[X]) : pint (D p) = p.eval 1 - p.eval (-1) := by
  unfold pint
  exact intervalIntegral.integral_eq_sub_of_hasDerivAt (fun x _ => p.hasDerivAt x) (pint_ii (D p))

theorem pint_comp_neg (p : ℝ[X]) : pint (p.comp (-X)) = pint p := by
  unfold pint
  simp only [eval_comp, eval_neg, eval_X]
  rw [intervalIntegral.integral_comp_neg (fun x => p.eval x)]
  simp

/-- Integration by parts without boundary terms. -/
theorem pint_parts (p q : ℝ[X]) (h1 : (p * q).eval 1 = 0) (h2 : (p * q).eval (-1) = 0) :
    pint (D p * q) = -pint (p * D q) := by
  have h := pint_derivative (p * q)
  rw [derivative_mul, pint_add, h1, h2] at h
  linarith

/-- `legL` is symmetric. -/
theorem pint_legL (p q : ℝ[X]) : pint (legL p * q) = pint (p * legL q) := by
  unfold legL
  rw [pint_parts _ _ (by simp) (by simp), mul_comm p, pint_parts _ _ (by simp) (by simp)]
  congr 2
  ring

theorem legendre_orth {n m : ℕ} (h : n ≠ m) : pint (legendre n * legendre m) = 0 := by
  have h1 := pint_legL (legendre n) (legendre m)
  rw [legendre_ode, legendre_ode, neg_mul, neg_mul, neg_mul, mul_assoc, mul_neg, mul_left_comm (legendre n), pint_neg, pint_neg, pint_C_mul, pint_C_mul] at h1
  have h2 : ((n : ℝ) * (n + 1) - m * (m + 1)) * pint (legendre n * legendre m) = 0 := by linarith
  refine (mul_eq_zero.mp h2).resolve_left fun h3 => h ?_
  have h4 : ((n : ℝ) - m) * (n + m + 1) = 0 := by linear_combination h3
  rcases mul_eq_zero.mp h4 with h5 | h5
  · exact_mod_cast sub_eq_zero.mp h5
  · exact absurd h5 (by positivity)

theorem legendre_orth_lower {n : ℕ} {g : ℝ[X]} (hg : ∀ k, n ≤ k → g.coeff k = 0) : pint (g * legendre n) = 0 := by
  obtain ⟨a, rfl⟩ := legendre_span n g hg
  rw [Finset.sum_mul, pint_sum]
  refine Finset.sum_eq_zero fun k hk => ?_
  rw [mul_assoc, pint_C_mul, legendre_orth (Finset.mem_range.mp hk).ne, mul_zero]

theorem legendre_norm (n : ℕ) : pint (legendre n * legendre n) = 2 / (2 * (n : ℝ) + 1) := by
  cases n with
  | zero =>
    rw [legendre_zero, mul_one]
    have := pint_derivative X
    simp only [derivative_X, eval_X] at this
    rw [this]; norm_num
  | succ n =>
    have h2 := (legendre_deriv n).2
    set P := legendre (n + 1)
    have h0 : pint (D (legendre n) * P) = 0 := by
      refine legendre_orth_lower fun k hk => ?_
      rw [coeff_derivative, coeff_eq_zero_of_natDegree_lt ((legendre_degree n).1.trans_lt (by omega)), zero_mul]
    have h3 : pint (X * D P * P) = ((n : ℝ) + 1) * pint (P * P) := by
      rw [← pint_C_mul, ← mul_assoc, ← h2, sub_mul, pint_sub, h0, sub_zero]
    have h4 := pint_derivative (X * (P * P))
    have e1 : P.eval 1 = 1 := legendre_eval_one _
    have e2 : P.eval (-1) * P.eval (-1) = 1 := by
      rw [show P.eval (-1) = (-1) ^ (n + 1) from legendre_eval_neg_one _, ← mul_pow]; simp
    rw [show D (X * (P * P)) = P * P + C 2 * (X * D P * P) by
      simp only [derivative_mul, derivative_X, map_ofNat]; ring, pint_add, pint_C_mul, h3] at h4
    simp only [eval_mul, eval_X, e1, e2] at h4
    push_cast
    rw [eq_div_iff (by positivity)]
    linarith

/-- the expansion in Legendre polynomials -/
theorem legendre_expansion {N : ℕ} {g : ℝ[X]} (hg : ∀ k, N ≤ k → g.coeff k = 0) :
    g = ∑ k ∈ Finset.range N, C ((2 * (k : ℝ) + 1) / 2 * pint (g * legendre k)) * legendre k := by
  obtain ⟨a, ha⟩ := legendre_span N g hg
  have h : ∀ k ∈ Finset.range N, a k = (2 * (k : ℝ) + 1) / 2 * pint (g * legendre k) := by
    intro k hk
    rw [ha, Finset.sum_mul, pint_sum, Finset.sum_eq_single k, mul_assoc, pint_C_mul, legendre_norm]
    · field_simp
    · intro j _ hj
      rw [mul_assoc, pint_C_mul, legendre_orth hj, mul_zero]
    · intro h; exact absurd hk h
  conv_lhs => rw [ha]
  exact Finset.sum_congr rfl fun k hk => by rw [h k hk]

/-- the integral with the Legendre polynomial of the same degree -/
theorem pint_top {n : ℕ} {g : ℝ[X]} (hg : g.natDegree ≤ n) :
    pint (g * legendre n) = g.coeff n / legLead n * (2 / (2 * (n : ℝ) + 1)) := by
  set c := g.coeff n / legLead n
  have h : pint ((g - C c * legendre n) * legendre n) = 0 := by
    refine legendre_orth_lower fun k hk => ?_
    rw [coeff_sub, coeff_C_mul]
    rcases hk.eq_or_lt with rfl | hk
    · rw [(legendre_degree n).2, div_mul_cancel₀ _ (legLead_pos n).ne', sub_self]
    · rw [coeff_eq_zero_of_natDegree_lt (hg.trans_lt hk),
        coeff_eq_zero_of_natDegree_lt ((legendre_degree n).1.trans_lt hk), mul_zero, sub_zero]
  rw [sub_mul, pint_sub, mul_assoc, pint_C_mul, legendre_norm] at h
  linarith

end CasSph
