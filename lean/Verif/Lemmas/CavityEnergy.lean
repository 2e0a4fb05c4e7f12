import Verif.Lemmas.InnerTrans
import Mathlib.Analysis.Calculus.MeanValue
import Mathlib.Analysis.SpecificLimits.Normed

/-! # An energy inequality for shifted regular waves (independent of the model)

`cavB P c y` is (up to `2/π`) the reflection coefficient of a perfectly conducting cavity wall of radius `y`.  Shifting the
centre by `x` while the wall recedes from `y` to `y+x` does not increase the quadratic form of these coefficients: the
matrix of the multiplication by `1 + cos θ` is not negative. -/

namespace CasSph

open Spec Filter Topology

noncomputable def cavB : Bool → ℕ → ℝ → ℝ
  | false, c, y => sphK (c + 1) y / sphI (c + 1) y
  | true, c, y => dK c y / dI c y

theorem cavB_pos (P : Bool) (c : ℕ) {y : ℝ} (hy : 0 < y) : 0 < cavB P c y := by
  have h1 := sphI_pos (c + 1) hy
  have h2 := dI_pos c hy
  have h3 := sphK_pos (c + 1) hy
  have h4 := dK_pos c hy
  cases P <;> simp only [cavB] <;> positivity

theorem cavB_pecR (P : Bool) (c : ℕ) {y : ℝ} (hy : 0 < y) : cavB P c y * pecR P c y = Real.pi / 2 := by
  have h1 := (sphI_pos (c + 1) hy).ne'
  have h2 := (dI_pos c hy).ne'
  have h3 := (sphK_pos (c + 1) hy).ne'
  have h4 := (dK_pos c hy).ne'
  cases P <;> simp only [cavB, pecR] <;> field_simp

/-! ## derivatives -/

theorem wr_pol (c : ℕ) {y : ℝ} (hy : 0 < y) : sphK (c + 1) y * dI c y + sphI (c + 1) y * dK c y = Real.pi / (2 * y ^ 2) := by
  rw [← wronskian c hy.ne']
  unfold dI dK
  ring

theorem wr_tm (c : ℕ) {y : ℝ} (hy : 0 < y) :
    dK c y * dI (c + 1) y + dK (c + 1) y * dI c y = Real.pi / (2 * y ^ 2) * (1 + (c + 2) ^ 2 / y ^ 2) := by
  have hw := wronskian c hy.ne'
  have hi := sphI_rec c hy.ne'
  have hk := sphK_rec c hy.ne'
  rw [← hw]
  unfold dI dK
  rw [hi, hk]
  have := hy.ne'
  push_cast
  field_simp
  ring

theorem dI_deriv (c : ℕ) {y : ℝ} (hy : 0 < y) :
    HasDerivAt (dI c) (sphI (c + 1) y * (1 + (c + 1) * (c + 2) / y ^ 2) - dI c y / y) y := by
  have h1 := sphI_deriv c hy
  have h2 := sphI_deriv (c + 1) hy
  have hy' := hy.ne'
  have h3 : HasDerivAt (fun y : ℝ => ((c : ℝ) + 1) / y) (-((c : ℝ) + 1) / y ^ 2) y := by
    have := (hasDerivAt_inv hy').const_mul ((c : ℝ) + 1)
    refine (this.congr_deriv ?_)
    ring
  refine (h1.sub (h3.mul h2)).congr_deriv ?_
  have hi := sphI_rec c hy'
  unfold dI
  rw [hi]
  push_cast
  field_simp
  ring

theorem dK_deriv (c : ℕ) {y : ℝ} (hy : 0 < y) :
    HasDerivAt (dK c) (-(sphK (c + 1) y * (1 + (c + 1) * (c + 2) / y ^ 2)) - dK c y / y) y := by
  have h1 := sphK_deriv c hy
  have h2 := sphK_deriv (c + 1) hy
  have hy' := hy.ne'
  have h3 : HasDerivAt (fun y : ℝ => ((c : ℝ) + 1) / y) (-((c : ℝ) + 1) / y ^ 2) y := by
    have := (hasDerivAt_inv hy').const_mul ((c : ℝ) + 1)
    refine (this.congr_deriv ?_)
    ring
  refine (h1.add (h3.mul h2)).congr_deriv ?_
  have hk := sphK_rec c hy'
  unfold dK
  rw [hk]
  push_cast
  field_simp
  ring

theorem cavB_deriv_E (c : ℕ) {y : ℝ} (hy : 0 < y) :
    HasDerivAt (cavB false c) (-(Real.pi / (2 * y ^ 2) / sphI (c + 1) y ^ 2)) y := by
  have hi := (sphI_pos (c + 1) hy).ne'
  have h := (sphK_deriv (c + 1) hy).div (sphI_deriv (c + 1) hy) hi
  refine h.congr_deriv ?_
  rw [← wronskian (c + 1) hy.ne', ← neg_div]
  congr 1
  ring

theorem cavB_deriv_M (c : ℕ) {y : ℝ} (hy : 0 < y) :
    HasDerivAt (cavB true c) (-(Real.pi / (2 * y ^ 2) * (1 + (c + 1) * (c + 2) / y ^ 2) / dI c y ^ 2)) y := by
  have hi := (dI_pos c hy).ne'
  have h := (dK_deriv c hy).div (dI_deriv c hy) hi
  refine h.congr_deriv ?_
  rw [← wr_pol c hy, ← neg_div]
  congr 1
  ring

/-! ## quadratic forms -/

theorem tri_nonneg {h g τ : ℕ → ℝ} (hh : ∀ s, 0 ≤ h s) (hg : ∀ s, 0 ≤ g s) (he : ∀ s, τ s ^ 2 = h s * g (s + 1)) (w : ℕ → ℝ) (p : ℕ) :
    h p * w p ^ 2 ≤ ∑ s ∈ Finset.range (p + 1), (h s + g s) * w s ^ 2 + 2 * ∑ s ∈ Finset.range p, τ s * (w s * w (s + 1)) := by
  induction p with
  | zero =>
    simp only [zero_add, Finset.sum_range_one, Finset.sum_range_zero, mul_zero, add_zero]
    nlinarith [mul_nonneg (hg 0) (sq_nonneg (w 0))]
  | succ p ih =>
    simp only [Finset.sum_range_succ] at ih ⊢
    have key : 0 ≤ h p * w p ^ 2 + 2 * (τ p * (w p * w (p + 1))) + g (p + 1) * w (p + 1) ^ 2 := by
      by_cases hz : h p = 0
      · have : τ p = 0 := by have := he p; rw [hz, zero_mul] at this; exact pow_eq_zero_iff (two_ne_zero) |>.mp this
        rw [hz, this]
        have := mul_nonneg (hg (p + 1)) (sq_nonneg (w (p + 1)))
        linarith
      · have hp : 0 < h p := lt_of_le_of_ne (hh p) (Ne.symm hz)
        have e : h p * (h p * w p ^ 2 + 2 * (τ p * (w p * w (p + 1))) + g (p + 1) * w (p + 1) ^ 2) = (h p * w p + τ p * w (p + 1)) ^ 2 := by
          have := he p
          linear_combination -(w (p + 1) ^ 2) * this
        exact nonneg_of_mul_nonneg_right (e ▸ sq_nonneg _) hp
    linarith

section
variable (m c0 : ℕ)

/-- coupling between the `s`-th and the next degree -/
noncomputable def ts (s : ℕ) : ℝ := t1 m (c0 + s + 1)

noncomputable def us (s : ℕ) : ℝ := t2 m (c0 + s + 1)

variable {m c0}

/-- `1 + cos θ` on both polarisations -/
theorem quad_pol (hm : m ≤ c0 + 1) (e f : ℕ → ℝ) (p : ℕ) :
    0 ≤ ∑ s ∈ Finset.range (p + 1), (e s ^ 2 + f s ^ 2 + 2 * us m c0 s * (e s * f s)) +
      2 * ∑ s ∈ Finset.range p, ts m c0 s * (e s * e (s + 1) + f s * f (s + 1)) := by
  have hmr : (m : ℝ) ≤ c0 + 1 := by exact_mod_cast hm
  have hm0 : (0 : ℝ) ≤ m := Nat.cast_nonneg m
  have hc : (0 : ℝ) ≤ c0 := Nat.cast_nonneg c0
  have hsq : ∀ s, ts m c0 s ^ 2 = _ := fun s => t1_sq (m := m) (l := c0 + s + 1) (by omega)
  have h1 := tri_nonneg (τ := ts m c0)
    (h := fun s => ((c0 + s + 2 : ℝ) + m) * (c0 + s + 3) / ((2 * (c0 + s) + 3) * (c0 + s + 2)))
    (g := fun s => ((c0 + s + 1 : ℝ) - m) * (c0 + s) / ((2 * (c0 + s) + 3) * (c0 + s + 1)))
    (fun s => by positivity)
    (fun s => by
      have : (0 : ℝ) ≤ s := Nat.cast_nonneg s
      exact div_nonneg (mul_nonneg (by linarith) (by positivity)) (by positivity))
    (fun s => by rw [hsq]; push_cast; field_simp; ring) (fun s => e s + f s) p
  have h2 := tri_nonneg (τ := ts m c0)
    (h := fun s => ((c0 + s + 2 : ℝ) + m) * (c0 + s + 1) / ((2 * (c0 + s) + 3) * (c0 + s + 2)))
    (g := fun s => ((c0 + s + 1 : ℝ) - m) * (c0 + s + 2) / ((2 * (c0 + s) + 3) * (c0 + s + 1)))
    (fun s => by positivity)
    (fun s => by
      have : (0 : ℝ) ≤ s := Nat.cast_nonneg s
      exact div_nonneg (mul_nonneg (by linarith) (by positivity)) (by positivity))
    (fun s => by rw [hsq]; push_cast; field_simp; ring) (fun s => e s - f s) p
  have hu : ∀ s, us m c0 s = m / (((c0 : ℝ) + s + 1) * (c0 + s + 2)) := by
    intro s
    unfold us t2
    push_cast
    congr 2
    ring
  have s1 : ∀ s : ℕ, ((c0 + s + 2 : ℝ) + m) * (c0 + s + 3) / ((2 * (c0 + s) + 3) * (c0 + s + 2)) +
      ((c0 + s + 1 : ℝ) - m) * (c0 + s) / ((2 * (c0 + s) + 3) * (c0 + s + 1)) = 1 + us m c0 s := by
    intro s; rw [hu]; field_simp; ring
  have s2 : ∀ s : ℕ, ((c0 + s + 2 : ℝ) + m) * (c0 + s + 1) / ((2 * (c0 + s) + 3) * (c0 + s + 2)) +
      ((c0 + s + 1 : ℝ) - m) * (c0 + s + 2) / ((2 * (c0 + s) + 3) * (c0 + s + 1)) = 1 - us m c0 s := by
    intro s; rw [hu]; field_simp; ring
  simp only [s1] at h1
  simp only [s2] at h2
  have p1 : 0 ≤ ((c0 + p + 2 : ℝ) + m) * (c0 + p + 3) / ((2 * (c0 + p) + 3) * (c0 + p + 2)) * (e p + f p) ^ 2 := by positivity
  have p2 : 0 ≤ ((c0 + p + 2 : ℝ) + m) * (c0 + p + 1) / ((2 * (c0 + p) + 3) * (c0 + p + 2)) * (e p - f p) ^ 2 := by positivity
  have a1 := p1.trans h1
  have a2 := p2.trans h2
  have e1 : ∑ s ∈ Finset.range (p + 1), (e s ^ 2 + f s ^ 2 + 2 * us m c0 s * (e s * f s)) =
      (∑ s ∈ Finset.range (p + 1), (1 + us m c0 s) * (e s + f s) ^ 2 + ∑ s ∈ Finset.range (p + 1), (1 - us m c0 s) * (e s - f s) ^ 2) / 2 := by
    rw [← Finset.sum_add_distrib, Finset.sum_div]
    refine Finset.sum_congr rfl fun s _ => ?_
    ring
  have e2 : ∑ s ∈ Finset.range p, ts m c0 s * (e s * e (s + 1) + f s * f (s + 1)) =
      (∑ s ∈ Finset.range p, ts m c0 s * ((e s + f s) * (e (s + 1) + f (s + 1))) +
        ∑ s ∈ Finset.range p, ts m c0 s * ((e s - f s) * (e (s + 1) - f (s + 1)))) / 2 := by
    rw [← Finset.sum_add_distrib, Finset.sum_div]
    refine Finset.sum_congr rfl fun s _ => ?_
    ring
  rw [e1, e2]
  linarith

/-- the additional part for TM -/
theorem quad_scalar (hm : m ≤ c0 + 1) (f : ℕ → ℝ) (p : ℕ) :
    0 ≤ ∑ s ∈ Finset.range (p + 1), ((c0 + s + 1 : ℝ) * (c0 + s + 2)) * f s ^ 2 +
      2 * ∑ s ∈ Finset.range p, (ts m c0 s * (c0 + s + 2) ^ 2) * (f s * f (s + 1)) := by
  have hmr : (m : ℝ) ≤ c0 + 1 := by exact_mod_cast hm
  have hm0 : (0 : ℝ) ≤ m := Nat.cast_nonneg m
  have hc : (0 : ℝ) ≤ c0 := Nat.cast_nonneg c0
  have hsq : ∀ s, ts m c0 s ^ 2 = _ := fun s => t1_sq (m := m) (l := c0 + s + 1) (by omega)
  have h1 := tri_nonneg (τ := fun s => ts m c0 s * (c0 + s + 2) ^ 2)
    (h := fun s => ((c0 + s + 1 : ℝ) * (c0 + s + 2)) * (c0 + s + 2 + m) / (2 * (c0 + s) + 3))
    (g := fun s => ((c0 + s + 1 : ℝ) * (c0 + s + 2)) * (c0 + s + 1 - m) / (2 * (c0 + s) + 3))
    (fun s => by positivity)
    (fun s => by
      have : (0 : ℝ) ≤ s := Nat.cast_nonneg s
      exact div_nonneg (mul_nonneg (by positivity) (by linarith)) (by positivity))
    (fun s => by simp only [mul_pow]; rw [hsq]; push_cast; field_simp; ring) f p
  have s1 : ∀ s : ℕ, ((c0 + s + 1 : ℝ) * (c0 + s + 2)) * (c0 + s + 2 + m) / (2 * (c0 + s) + 3) +
      ((c0 + s + 1 : ℝ) * (c0 + s + 2)) * (c0 + s + 1 - m) / (2 * (c0 + s) + 3) = (c0 + s + 1 : ℝ) * (c0 + s + 2) := by
    intro s; field_simp; ring
  simp only [s1] at h1
  exact le_trans (by positivity) h1

/-- The rate of change of the energy: what flows into the degrees not counted bounds it. -/
theorem energy_rate (hm : m ≤ c0 + 1) {y : ℝ} (hy : 0 < y) (e f : ℕ → ℝ) (p : ℕ) :
    ∑ s ∈ Finset.range (p + 1), (-(Real.pi / (2 * y ^ 2) / sphI (c0 + s + 1) y ^ 2) * e s ^ 2 +
        -(Real.pi / (2 * y ^ 2) * (1 + ((c0 + s : ℕ) + 1 : ℝ) * ((c0 + s : ℕ) + 2) / y ^ 2) / dI (c0 + s) y ^ 2) * f s ^ 2 -
        2 * (cavB false (c0 + s) y * e s * (ts m c0 s * e (s + 1) + (if s = 0 then 0 else ts m c0 (s - 1) * e (s - 1)) + us m c0 s * f s)) -
        2 * (cavB true (c0 + s) y * f s * (ts m c0 s * f (s + 1) + (if s = 0 then 0 else ts m c0 (s - 1) * f (s - 1)) + us m c0 s * e s))) ≤
      -(2 * ts m c0 p * (cavB false (c0 + p) y * (e p * e (p + 1)) + cavB true (c0 + p) y * (f p * f (p + 1)))) := by
  set E : ℕ → ℝ := fun s => e s / sphI (c0 + s + 1) y with hE
  set F : ℕ → ℝ := fun s => f s / dI (c0 + s) y with hF
  have hi : ∀ s, sphI (c0 + s + 1) y ≠ 0 := fun s => (sphI_pos _ hy).ne'
  have hd : ∀ s, dI (c0 + s) y ≠ 0 := fun s => (dI_pos _ hy).ne'
  set G := Real.pi / (2 * y ^ 2) with hG
  have hG0 : 0 < G := by have := Real.pi_pos; positivity
  -- one degree
  have diag : ∀ s, -(G / sphI (c0 + s + 1) y ^ 2) * e s ^ 2 + -(G * (1 + ((c0 + s : ℕ) + 1 : ℝ) * ((c0 + s : ℕ) + 2) / y ^ 2) / dI (c0 + s) y ^ 2) * f s ^ 2 -
      2 * (us m c0 s * ((cavB false (c0 + s) y + cavB true (c0 + s) y) * (e s * f s))) =
      -(G * (E s ^ 2 + F s ^ 2 + 2 * us m c0 s * (E s * F s) + ((c0 + s + 1 : ℝ) * (c0 + s + 2)) * F s ^ 2 / y ^ 2)) := by
    intro s
    have hw := wr_pol (c0 + s) hy
    rw [← hG] at hw
    have e1 : (cavB false (c0 + s) y + cavB true (c0 + s) y) * (e s * f s) = G * (E s * F s) := by
      rw [← hw]
      simp only [cavB, hE, hF]
      have := hi s; have := hd s
      field_simp
    rw [e1]
    simp only [hE, hF]
    have := hi s; have := hd s; have := hy.ne'
    push_cast
    field_simp
    ring
  have off : ∀ s, (cavB false (c0 + s) y + cavB false (c0 + s + 1) y) * (e s * e (s + 1)) = G * (E s * E (s + 1)) := by
    intro s
    have hw := wronskian (c0 + s + 1) hy.ne'
    rw [← hG] at hw
    rw [← hw]
    simp only [cavB, hE]
    have h1 := hi s
    have h2 := hi (s + 1)
    rw [show c0 + (s + 1) + 1 = c0 + s + 1 + 1 by ring] at *
    field_simp
    ring
  have offM : ∀ s, (cavB true (c0 + s) y + cavB true (c0 + s + 1) y) * (f s * f (s + 1)) =
      G * ((1 + (c0 + s + 2 : ℝ) ^ 2 / y ^ 2) * (F s * F (s + 1))) := by
    intro s
    have hw := wr_tm (c0 + s) hy
    rw [← hG] at hw
    push_cast at hw
    rw [← mul_assoc G, ← hw]
    simp only [cavB, hF]
    have h1 := hd s
    have h2 := hd (s + 1)
    rw [show c0 + (s + 1) = c0 + s + 1 by ring] at *
    field_simp
  have hQ : 0 ≤ G * ((∑ s ∈ Finset.range (p + 1), (E s ^ 2 + F s ^ 2 + 2 * us m c0 s * (E s * F s)) +
      2 * ∑ s ∈ Finset.range p, ts m c0 s * (E s * E (s + 1) + F s * F (s + 1))) +
      (∑ s ∈ Finset.range (p + 1), ((c0 + s + 1 : ℝ) * (c0 + s + 2)) * F s ^ 2 +
      2 * ∑ s ∈ Finset.range p, (ts m c0 s * (c0 + s + 2) ^ 2) * (F s * F (s + 1))) / y ^ 2) :=
    mul_nonneg hG0.le (add_nonneg (quad_pol hm E F p) (div_nonneg (quad_scalar hm F p) (by positivity)))
  refine le_of_sub_nonneg (hQ.trans (le_of_eq ?_))
  clear hQ
  induction p with
  | zero =>
    have := diag 0
    simp only [zero_add, Finset.sum_range_one, Finset.sum_range_zero, mul_zero, add_zero, if_true, Nat.cast_zero, add_zero] at this ⊢
    linear_combination this
  | succ p ih =>
    simp only [Finset.sum_range_succ] at ih ⊢
    simp only [if_neg (Nat.succ_ne_zero p), Nat.add_sub_cancel] at ih ⊢
    have h1 := diag (p + 1)
    have h2 := off p
    have h3 := offM p
    rw [show c0 + p + 1 = c0 + (p + 1) by ring] at h2 h3
    linear_combination ih + h1 - 2 * ts m c0 p * (h2 + h3)

end

end CasSph
