import Verif.Props.TransIntegral
import Mathlib.Analysis.SpecialFunctions.Trigonometric.DerivHyp

/-! # Angular functions of definite helicity decrease with the order `m ≥ 1` -/

namespace CasSph

open Spec

/-- Legendre's differential equation, differentiated `m` times -/
theorem dq_ode (l m : ℕ) (t : ℝ) :
    (t ^ 2 - 1) * dq l (m + 2) t + 2 * (m + 1) * t * dq l (m + 1) t = ((l : ℝ) - m) * (l + m + 1) * dq l m t := by
  have h1 := tq_up l (m + 1) t
  have h2 := tq_eq l (m + 1) t
  have h3 := dq_rec1 l m t
  rw [h2, h3] at h1
  push_cast at h1
  linear_combination h1

/-- `(τ + σ π)/(N s^{m-1})`: the angular function of helicity `σ` without normalisation -/
noncomputable def hW (l : ℕ) (σ : ℝ) (m : ℕ) (t : ℝ) : ℝ := (t ^ 2 - 1) * dq l (m + 1) t + m * (t + σ) * dq l m t

theorem hW_none {l m : ℕ} (h : l < m) (σ t : ℝ) : hW l σ m t = 0 := by
  unfold hW; rw [dq_none h, dq_none (by omega)]; ring

theorem hW_hasDeriv (l : ℕ) (σ : ℝ) (m : ℕ) (t : ℝ) :
    HasDerivAt (hW l σ m) (2 * t * dq l (m + 1) t + (t ^ 2 - 1) * dq l (m + 2) t + m * dq l m t + m * (t + σ) * dq l (m + 1) t) t := by
  have h0 : HasDerivAt (fun t : ℝ => t ^ 2 - 1) (2 * t) t := by simpa using (hasDerivAt_pow 2 t).sub_const 1
  have h1 : HasDerivAt (fun t : ℝ => (m : ℝ) * (t + σ)) m t := by simpa using ((hasDerivAt_id t).add_const σ).const_mul (m : ℝ)
  refine ((h0.mul (dq_hasDeriv l (m + 1) t)).add (h1.mul (dq_hasDeriv l m t))).congr_deriv ?_
  ring

theorem hW_nonneg {l m : ℕ} {σ t : ℝ} (hσ : σ = 1 ∨ σ = -1) (ht : 1 ≤ t) : 0 ≤ hW l σ m t := by
  unfold hW
  have := dq_nonneg ht l (m + 1)
  have := dq_nonneg ht l m
  have : 0 ≤ t ^ 2 - 1 := by nlinarith
  have : 0 ≤ t + σ := by rcases hσ with h | h <;> rw [h] <;> linarith
  positivity

/-- ladder coefficient -/
noncomputable def lad (l m : ℕ) : ℝ := Real.sqrt (((l : ℝ) - m) * (l + m + 1))

theorem lad_nonneg (l m : ℕ) : 0 ≤ lad l m := Real.sqrt_nonneg _

theorem lad_anti (l m : ℕ) : lad l (m + 1) ≤ lad l m := by
  unfold lad
  refine Real.sqrt_le_sqrt ?_
  push_cast
  nlinarith

theorem lad_none {l m : ℕ} (h : l ≤ m) : lad l m = 0 := by
  unfold lad
  refine Real.sqrt_eq_zero_of_nonpos ?_
  have : (l : ℝ) ≤ m := by exact_mod_cast h
  exact mul_nonpos_of_nonpos_of_nonneg (by linarith) (by positivity)

theorem lad_nV {l m : ℕ} (h : m < l) : lad l m * nV l (m + 1) = nV l m := by
  have hl : 1 ≤ l := by omega
  have hl' : (0 : ℝ) < l := by exact_mod_cast hl
  have hm : (m : ℝ) < l := by exact_mod_cast h
  have e : nn l (m + 1) = ((l : ℝ) - m) * (l + m + 1) * nn l m := by
    unfold nn
    obtain ⟨d, rfl⟩ := Nat.exists_eq_add_of_lt h
    have e1 : m + d + 1 - m = d + 1 := by omega
    have e2 : m + d + 1 - (m + 1) = d := by omega
    have e3 : m + d + 1 + (m + 1) = m + d + 1 + m + 1 := by omega
    rw [e1, e2, e3, Nat.factorial_succ (m + d + 1 + m), Nat.factorial_succ d]
    have := Nat.factorial_pos d
    push_cast
    field_simp
    ring
  have hn := nn_pos l m
  unfold lad nV
  rw [e, ← Real.sqrt_mul (by nlinarith)]
  congr 1
  have : (l : ℝ) - m ≠ 0 := by linarith
  have : (l : ℝ) + m + 1 ≠ 0 := by positivity
  field_simp

theorem lad_up {l : ℕ} (m : ℕ) (σ t : ℝ) : lad l m * (nV l (m + 1) * hW l σ (m + 1) t) = nV l m * hW l σ (m + 1) t := by
  by_cases h : m < l
  · rw [← mul_assoc, lad_nV h]
  · rw [hW_none (by omega)]; ring

theorem lad_down {l : ℕ} (m : ℕ) (σ t : ℝ) :
    lad l m * (nV l m * hW l σ m t) = nV l (m + 1) * (((l : ℝ) - m) * (l + m + 1) * hW l σ m t) := by
  rcases lt_trichotomy m l with h | h | h
  · rw [← lad_nV h]
    have : (m : ℝ) < l := by exact_mod_cast h
    have e : lad l m * lad l m = ((l : ℝ) - m) * (l + m + 1) := Real.mul_self_sqrt (by nlinarith [Nat.cast_nonneg (α := ℝ) m])
    rw [← e]; ring
  · rw [lad_none h.ge, h]; ring
  · rw [hW_none h]; ring

/-- angular function of helicity `σ` and order `n + 1` at the hyperbolic angle `β` -/
noncomputable def hG (l : ℕ) (σ : ℝ) (n : ℕ) (β : ℝ) : ℝ := nV l (n + 1) * (Real.sinh β ^ n * hW l σ (n + 1) (Real.cosh β))

/-- its derivative -/
noncomputable def hG' (l : ℕ) (σ : ℝ) (n : ℕ) (β : ℝ) : ℝ :=
  nV l (n + 1) * (n * Real.sinh β ^ (n - 1) * Real.cosh β * hW l σ (n + 1) (Real.cosh β) + Real.sinh β ^ n *
    ((2 * Real.cosh β * dq l (n + 2) (Real.cosh β) + (Real.cosh β ^ 2 - 1) * dq l (n + 3) (Real.cosh β) + (n + 1 : ℕ) * dq l (n + 1) (Real.cosh β) +
      (n + 1 : ℕ) * (Real.cosh β + σ) * dq l (n + 2) (Real.cosh β)) * Real.sinh β))

theorem hG_hasDeriv (l : ℕ) (σ : ℝ) (n : ℕ) (β : ℝ) : HasDerivAt (hG l σ n) (hG' l σ n β) β := by
  have h1 := (Real.hasDerivAt_sinh β).pow n
  have h2 := (hW_hasDeriv l σ (n + 1) (Real.cosh β)).comp β (Real.hasDerivAt_cosh β)
  exact (h1.mul h2).const_mul (nV l (n + 1))

theorem hG'_eq {β : ℝ} (hβ : 0 < β) (l : ℕ) (σ : ℝ) (n : ℕ) :
    hG' l σ n β = Real.sinh β ^ n / Real.sinh β * (nV l (n + 1) * (n * Real.cosh β * hW l σ (n + 1) (Real.cosh β) + (Real.cosh β ^ 2 - 1) *
      (2 * Real.cosh β * dq l (n + 2) (Real.cosh β) + (Real.cosh β ^ 2 - 1) * dq l (n + 3) (Real.cosh β) + (n + 1 : ℕ) * dq l (n + 1) (Real.cosh β) +
      (n + 1 : ℕ) * (Real.cosh β + σ) * dq l (n + 2) (Real.cosh β)))) := by
  have hs := (Real.sinh_pos_iff.mpr hβ).ne'
  have e : Real.cosh β ^ 2 - 1 = Real.sinh β ^ 2 := by rw [Real.cosh_sq]; ring
  have e2 : (n : ℝ) * Real.sinh β ^ (n - 1) = n * (Real.sinh β ^ n / Real.sinh β) := by
    cases n with
    | zero => simp
    | succ n => rw [Nat.add_sub_cancel, pow_succ]; field_simp
  unfold hG'
  rw [e2, e]
  generalize Real.sinh β ^ n = S
  field_simp

/-- raising -/
theorem hG_up {β : ℝ} (hβ : 0 < β) {σ : ℝ} (hσ : σ ^ 2 = 1) (l n : ℕ) :
    hG' l σ n β = lad l (n + 1) * hG l σ (n + 1) β + ((n + 1) * Real.cosh β - σ) / Real.sinh β * hG l σ n β := by
  have hs := (Real.sinh_pos_iff.mpr hβ).ne'
  have e : Real.cosh β ^ 2 - 1 = Real.sinh β ^ 2 := by rw [Real.cosh_sq]; ring
  rw [hG'_eq hβ]
  have e1 : lad l (n + 1) * hG l σ (n + 1) β = Real.sinh β ^ n / Real.sinh β * (nV l (n + 1) * ((Real.cosh β ^ 2 - 1) * hW l σ (n + 2) (Real.cosh β))) := by
    have := lad_up (l := l) (n + 1) σ (Real.cosh β)
    unfold hG
    rw [e, pow_succ]
    field_simp
    linear_combination this
  rw [e1]
  unfold hG hW
  push_cast
  generalize nV l (n + 1) = N
  generalize dq l (n + 1) (Real.cosh β) = Q
  generalize dq l (n + 1 + 1) (Real.cosh β) = Q1
  generalize dq l (n + 3) (Real.cosh β) = Q2
  generalize Real.cosh β = t at *
  field_simp
  linear_combination N * (n + 1) * Q * hσ

/-- lowering -/
theorem hG_down {β : ℝ} (hβ : 0 < β) {σ : ℝ} (hσ : σ ^ 2 = 1) (l n : ℕ) :
    hG' l σ (n + 1) β = lad l (n + 1) * hG l σ n β - ((n + 2) * Real.cosh β - σ) / Real.sinh β * hG l σ (n + 1) β := by
  have hs := (Real.sinh_pos_iff.mpr hβ).ne'
  rw [hG'_eq hβ]
  have e1 : lad l (n + 1) * hG l σ n β = Real.sinh β ^ n * (nV l (n + 2) * (((l : ℝ) - (n + 1)) * (l + (n + 1) + 1) * hW l σ (n + 1) (Real.cosh β))) := by
    have := lad_down (l := l) (n + 1) σ (Real.cosh β)
    push_cast at this
    unfold hG
    linear_combination Real.sinh β ^ n * this
  have o1 := dq_ode l (n + 1) (Real.cosh β)
  have o2 := dq_ode l (n + 2) (Real.cosh β)
  have hp : Real.sinh β ^ (n + 1) = Real.sinh β ^ n * Real.sinh β := pow_succ _ _
  rw [e1]
  clear e1
  unfold hG hW
  rw [hp, mul_div_cancel_right₀ _ hs]
  push_cast at *
  generalize nV l (n + 2) = N
  simp only [show n + 1 + 2 = n + 3 by ring, show n + 1 + 3 = n + 4 by ring, show n + 1 + 1 = n + 2 by ring] at *
  generalize dq l (n + 1) (Real.cosh β) = Q at *
  generalize dq l (n + 2) (Real.cosh β) = Q1 at *
  generalize dq l (n + 3) (Real.cosh β) = Q2 at *
  generalize dq l (n + 4) (Real.cosh β) = Q3 at *
  generalize Real.cosh β = t at *
  generalize Real.sinh β ^ n = S
  field_simp
  linear_combination S * N * ((t ^ 2 - 1) * o2 + (n + 1) * (t + σ) * o1 - (n + 2) * Q1 * hσ)

/-! ## Cooperative differential inequalities -/

/-- negative part -/
noncomputable def npart (x : ℝ) : ℝ := max (-x) 0

theorem npart_nonneg (x : ℝ) : 0 ≤ npart x := le_max_right _ _

theorem neg_le_npart (x : ℝ) : -x ≤ npart x := le_max_left _ _

theorem npart_mul_self (x : ℝ) : npart x * x = -npart x ^ 2 := by
  unfold npart
  rcases le_total (-x) 0 with h | h
  · rw [max_eq_right h]; ring
  · rw [max_eq_left h]; ring

theorem npart_sq_hasDeriv (x : ℝ) : HasDerivAt (fun x => npart x ^ 2) (-(2 * npart x)) x := by
  rcases lt_trichotomy x 0 with h | h | h
  · have e : (fun x => npart x ^ 2) =ᶠ[nhds x] fun x => x ^ 2 := by
      filter_upwards [eventually_lt_nhds h] with y hy
      unfold npart
      rw [max_eq_left (by linarith), neg_sq]
    have h2 : npart x = -x := max_eq_left (by linarith)
    rw [h2]
    refine (HasDerivAt.congr_of_eventuallyEq ?_ e)
    simpa using hasDerivAt_pow 2 x
  · subst h
    have h2 : npart 0 = 0 := by unfold npart; simp
    rw [h2, mul_zero, neg_zero, hasDerivAt_iff_isLittleO_nhds_zero]
    simp only [h2, zero_add, smul_zero, sub_zero, ne_eq, OfNat.ofNat_ne_zero, not_false_eq_true, zero_pow]
    have h3 : (fun y : ℝ => npart y ^ 2) =O[nhds 0] fun y : ℝ => y ^ 2 := by
      refine Asymptotics.IsBigO.of_bound 1 (Filter.Eventually.of_forall fun y => ?_)
      rw [one_mul, Real.norm_eq_abs, Real.norm_eq_abs, abs_of_nonneg (sq_nonneg _), abs_of_nonneg (sq_nonneg _)]
      unfold npart
      rcases le_total (-y) 0 with h | h
      · rw [max_eq_right h]; nlinarith
      · rw [max_eq_left h, neg_sq]
    refine h3.trans_isLittleO ?_
    have := Asymptotics.isLittleO_pow_pow (𝕜 := ℝ) (m := 1) (n := 2) (by norm_num)
    simpa using this
  · have e : (fun x => npart x ^ 2) =ᶠ[nhds x] fun _ => 0 := by
      filter_upwards [eventually_gt_nhds h] with y hy
      unfold npart
      rw [max_eq_right (by linarith)]
      norm_num
    have h2 : npart x = 0 := max_eq_right (by linarith)
    rw [h2, mul_zero, neg_zero]
    exact (hasDerivAt_const x (0 : ℝ)).congr_of_eventuallyEq e

/-- Functions which are non-negative at the beginning stay so, if the derivative of each one is at least a combination of its neighbours with
non-negative coefficients. -/
theorem coop_nonneg {g g' : ℕ → ℝ → ℝ} {L : ℕ} {a B : ℝ} {b c : ℕ → ℝ} (a0 : 0 ≤ a) (b0 : ∀ i, 0 ≤ b i) (c0 : ∀ i, 0 ≤ c i) (bB : ∀ i, b i ≤ B)
    (cB : ∀ i, c i ≤ B) (hd : ∀ i β, HasDerivAt (g i) (g' i β) β) (hL : ∀ i, L ≤ i → ∀ β, 0 ≤ β → 0 ≤ g i β) (h0 : ∀ i, 0 ≤ g i 0)
    (e0 : ∀ β, 0 < β → -(a * g 0 β) + b 0 * g 1 β ≤ g' 0 β)
    (e1 : ∀ i β, 0 < β → c i * g i β + b (i + 1) * g (i + 2) β ≤ g' (i + 1) β) (i : ℕ) {β : ℝ} (hβ : 0 ≤ β) : 0 ≤ g i β := by
  have B0 : 0 ≤ B := (b0 0).trans (bB 0)
  set Φ : ℝ → ℝ := fun β => ∑ i ∈ Finset.range L, npart (g i β) ^ 2 with hΦ
  have dΦ : ∀ β, HasDerivAt Φ (∑ i ∈ Finset.range L, -(2 * npart (g i β)) * g' i β) β := by
    intro β
    refine (HasDerivAt.fun_sum (u := Finset.range L) (A := fun i β => npart (g i β) ^ 2) (A' := fun i => -(2 * npart (g i β)) * g' i β) fun i _ => ?_)
    exact (npart_sq_hasDeriv (g i β)).comp β (hd i β)
  have two : ∀ {x y z : ℝ}, 0 ≤ z → z ≤ B → 2 * npart x * (z * -y) ≤ B * (npart x ^ 2 + npart y ^ 2) := by
    intro x y z hz hB
    have h1 : npart x * -y ≤ npart x * npart y := mul_le_mul_of_nonneg_left (neg_le_npart y) (npart_nonneg x)
    have h2 : 0 ≤ npart x ^ 2 + npart y ^ 2 := by positivity
    calc 2 * npart x * (z * -y) = 2 * z * (npart x * -y) := by ring
      _ ≤ 2 * z * (npart x * npart y) := mul_le_mul_of_nonneg_left h1 (by positivity)
      _ ≤ z * (npart x ^ 2 + npart y ^ 2) := by nlinarith [sq_nonneg (npart x - npart y), mul_nonneg hz (sq_nonneg (npart x - npart y))]
      _ ≤ _ := mul_le_mul_of_nonneg_right hB h2
  have key : ∀ β, 0 < β → ∑ i ∈ Finset.range L, -(2 * npart (g i β)) * g' i β ≤ 4 * B * Φ β := by
    intro β hβ
    set f : ℕ → ℝ := fun i => npart (g i β) ^ 2 with hf
    have f0 : ∀ i, 0 ≤ f i := fun i => sq_nonneg _
    have t : ∀ i, -(2 * npart (g i β)) * g' i β ≤ B * (2 * f i + f (i + 1) + (if i = 0 then 0 else f (i - 1))) := by
      intro i
      have hn := npart_nonneg (g i β)
      cases i with
      | zero =>
        have h1 := mul_le_mul_of_nonneg_left (e0 β hβ) hn
        have h2 := two (x := g 0 β) (y := g 1 β) (b0 0) (bB 0)
        have h3 := npart_mul_self (g 0 β)
        have h4 : npart (g 0 β) * -(a * g 0 β) = a * npart (g 0 β) ^ 2 := by linear_combination (-a) * h3
        have h5 : 0 ≤ a * npart (g 0 β) ^ 2 := by positivity
        have h6 : 0 ≤ B * f 0 := mul_nonneg B0 (f0 0)
        simp only [if_true, hf, zero_add] at *
        nlinarith
      | succ i =>
        have h1 := mul_le_mul_of_nonneg_left (e1 i β hβ) hn
        have h2 := two (x := g (i + 1) β) (y := g i β) (c0 i) (cB i)
        have h3 := two (x := g (i + 1) β) (y := g (i + 2) β) (b0 (i + 1)) (bB (i + 1))
        simp only [hf, if_neg (Nat.succ_ne_zero i), Nat.add_sub_cancel] at *
        nlinarith
    have fL : f L = 0 := by
      simp only [hf, npart]
      rw [max_eq_right (by linarith [hL L le_rfl β hβ.le])]; norm_num
    have s1 : ∑ i ∈ Finset.range L, f (i + 1) ≤ Φ β := by
      have h1 := Finset.sum_range_succ' f L
      rw [Finset.sum_range_succ, fL] at h1
      have : ∑ i ∈ Finset.range L, f i = Φ β := rfl
      have := f0 0
      linarith
    have s2 : ∑ i ∈ Finset.range L, (if i = 0 then 0 else f (i - 1)) ≤ Φ β := by
      have : ∑ i ∈ Finset.range L, f i = Φ β := rfl
      rw [← this]
      cases L with
      | zero => simp
      | succ L =>
        rw [Finset.sum_range_succ', Finset.sum_range_succ]
        simp only [Nat.succ_ne_zero, if_false, Nat.add_sub_cancel, if_true]
        linarith [f0 L]
    calc _ ≤ ∑ i ∈ Finset.range L, B * (2 * f i + f (i + 1) + (if i = 0 then 0 else f (i - 1))) := Finset.sum_le_sum fun i _ => t i
      _ = B * (2 * Φ β + ∑ i ∈ Finset.range L, f (i + 1) + ∑ i ∈ Finset.range L, (if i = 0 then 0 else f (i - 1))) := by
        rw [← Finset.mul_sum, Finset.sum_add_distrib, Finset.sum_add_distrib, ← Finset.mul_sum]
      _ ≤ B * (2 * Φ β + Φ β + Φ β) := mul_le_mul_of_nonneg_left (by linarith) B0
      _ = _ := by ring
  set Ψ : ℝ → ℝ := fun β => Real.exp (-(4 * B * β)) * Φ β with hΨ
  have dΨ : ∀ β, HasDerivAt Ψ (Real.exp (-(4 * B * β)) * (-(4 * B)) * Φ β + Real.exp (-(4 * B * β)) * ∑ i ∈ Finset.range L, -(2 * npart (g i β)) * g' i β) β := by
    intro β
    have h1 : HasDerivAt (fun β : ℝ => -(4 * B * β)) (-(4 * B)) β := (((hasDerivAt_id β).const_mul (4 * B)).fun_neg).congr_deriv (by ring)
    exact h1.exp.mul (dΦ β)
  have anti : AntitoneOn Ψ (Set.Ici 0) := by
    refine antitoneOn_of_deriv_nonpos (convex_Ici 0) (fun y _ => (dΨ y).continuousAt.continuousWithinAt) ?_ ?_
    · intro y _
      exact (dΨ y).differentiableAt.differentiableWithinAt
    · intro y hy
      rw [interior_Ici] at hy
      rw [(dΨ y).deriv]
      have := mul_le_mul_of_nonneg_left (key y hy) (Real.exp_pos (-(4 * B * y))).le
      linarith
  have Φ0 : Φ 0 = 0 := by
    simp only [hΦ]
    refine Finset.sum_eq_zero fun i _ => ?_
    unfold npart
    rw [max_eq_right (by linarith [h0 i])]; norm_num
  have hle : Φ β ≤ 0 := by
    have h1 := anti (Set.mem_Ici.mpr le_rfl) (Set.mem_Ici.mpr hβ) hβ
    simp only [hΨ, Φ0, mul_zero] at h1
    exact nonpos_of_mul_nonpos_right h1 (Real.exp_pos _)
  rcases lt_or_ge i L with hi | hi
  · have h1 : npart (g i β) ^ 2 ≤ Φ β := Finset.single_le_sum (f := fun i => npart (g i β) ^ 2) (fun _ _ => sq_nonneg _) (Finset.mem_range.mpr hi)
    have h2 : npart (g i β) = 0 := pow_eq_zero_iff (two_ne_zero) |>.mp (le_antisymm (h1.trans hle) (sq_nonneg _))
    have := neg_le_npart (g i β)
    linarith
  · exact hL i hi β hβ

/-! ## The angular functions decrease with the order -/

theorem hG_nonneg {l : ℕ} (hl : 1 ≤ l) {σ : ℝ} (hσ : σ = 1 ∨ σ = -1) (n : ℕ) {β : ℝ} (hβ : 0 ≤ β) : 0 ≤ hG l σ n β :=
  mul_nonneg (nV_pos hl _).le (mul_nonneg (pow_nonneg (Real.sinh_nonneg_iff.mpr hβ) n) (hW_nonneg hσ (Real.one_le_cosh β)))

theorem hG_mean {β : ℝ} (hβ : 0 < β) {σ : ℝ} (hσ : σ ^ 2 = 1) (l n : ℕ) :
    hG' l σ (n + 1) β = (lad l (n + 1) * hG l σ n β + lad l (n + 2) * hG l σ (n + 2) β) / 2 := by
  have h1 := hG_up hβ hσ l (n + 1)
  have h2 := hG_down hβ hσ l n
  push_cast at h1
  have e : ((n : ℝ) + 1 + 1) = n + 2 := by ring
  rw [e] at h1
  linarith

theorem hG_anti {l : ℕ} (hl : 1 ≤ l) {σ : ℝ} (hσ : σ = 1 ∨ σ = -1) (n : ℕ) {β : ℝ} (hβ : 0 ≤ β) : hG l σ (n + 1) β ≤ hG l σ n β := by
  have hσ2 : σ ^ 2 = 1 := by rcases hσ with h | h <;> rw [h] <;> norm_num
  have lanti : Antitone (lad l) := antitone_nat_of_succ_le (lad_anti l)
  have := coop_nonneg (g := fun i β => hG l σ i β - hG l σ (i + 1) β) (g' := fun i β => hG' l σ i β - hG' l σ (i + 1) β) (L := l)
    (a := lad l 1 / 2) (B := lad l 0) (b := fun i => lad l (i + 2) / 2) (c := fun i => lad l (i + 1) / 2)
    (by have := lad_nonneg l 1; positivity) (fun i => by have := lad_nonneg l (i + 2); positivity)
    (fun i => by have := lad_nonneg l (i + 1); positivity)
    (fun i => by have := lad_nonneg l (i + 2); have := lanti (Nat.zero_le (i + 2)); linarith)
    (fun i => by have := lad_nonneg l (i + 1); have := lanti (Nat.zero_le (i + 1)); linarith)
    (fun i β => (hG_hasDeriv l σ i β).sub (hG_hasDeriv l σ (i + 1) β))
    (fun i hi β hβ => by
      have h1 : hG l σ (i + 1) β = 0 := by unfold hG; rw [hW_none (by omega)]; ring
      simp only [h1, sub_zero]
      exact hG_nonneg hl hσ i hβ)
    (fun i => by
      have h1 : hG l σ (i + 1) 0 = 0 := by unfold hG; rw [Real.sinh_zero]; simp
      simp only [h1, sub_zero]
      exact hG_nonneg hl hσ i le_rfl)
    (fun β hβ => ?_) (fun i β hβ => ?_) n hβ
  · simpa using this
  · have h1 := hG_up hβ hσ2 l 0
    have h2 := hG_mean hβ hσ2 l 0
    have hs := Real.sinh_pos_iff.mpr hβ
    have hc := Real.one_le_cosh β
    have h3 : 0 ≤ ((((0 : ℕ) : ℝ) + 1) * Real.cosh β - σ) / Real.sinh β * hG l σ 0 β := by
      refine mul_nonneg (div_nonneg ?_ hs.le) (hG_nonneg hl hσ 0 hβ.le)
      rcases hσ with h | h <;> rw [h] <;> push_cast <;> linarith
    have h4 : 0 ≤ (lad l 1 - lad l 2) * hG l σ 1 β := mul_nonneg (by linarith [lad_anti l 1]) (hG_nonneg hl hσ 1 hβ.le)
    simp only [zero_add] at *
    linarith
  · have h1 := hG_mean hβ hσ2 l i
    have h2 := hG_mean hβ hσ2 l (i + 1)
    have h3 : 0 ≤ (lad l (i + 1) - lad l (i + 2)) * hG l σ (i + 1) β := mul_nonneg (by linarith [lad_anti l (i + 1)]) (hG_nonneg hl hσ _ hβ.le)
    have h4 : 0 ≤ (lad l (i + 2) - lad l (i + 3)) * hG l σ (i + 2) β := mul_nonneg (by linarith [lad_anti l (i + 2)]) (hG_nonneg hl hσ _ hβ.le)
    simp only [show i + 1 + 1 = i + 2 by ring, show i + 1 + 2 = i + 3 by ring] at *
    linarith

end CasSph
