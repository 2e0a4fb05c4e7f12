import Verif.Lemmas.RowZero
import Verif.Lemmas.TransPol
import Verif.Lemmas.SchurTest
import Mathlib.Data.Nat.Bits

/-! Contraction property of the round trip between two separate spheres at a finite wavenumber: the modulus of the
translation matrix weighted with the reflection coefficients of perfectly conducting spheres has norm at most
`exp(-δ)`, where `δ` is the optical gap, and a Hilbert-Schmidt norm which is finite and decays with `δ` and `m`.

Multipoles are counted by `c = l - 1`; polarisation `false` is TE, `true` is TM. -/

namespace CasSph

open Spec Polynomial

/-- modulus of the translation coefficient between `(c, P)` and `(c', Q)` -/
noncomputable def fab (m : ℕ) (x : ℝ) (P Q : Bool) (c c' : ℕ) : ℝ :=
  nV (c + 1) m * nV (c' + 1) m * lap x (if P = Q then eePol (c + 1) (c' + 1) m else emPol (c + 1) (c' + 1) m)

/-- weight of a regular wave -/
noncomputable def wtI : ℕ → Bool → ℕ → ℝ → ℝ
  | 0, false, c, ρ => (c + 1) * (c + 2) * nV (c + 1) 0 * sphI (c + 1) ρ
  | 0, true, c, ρ => (c + 1) * (c + 2) * nV (c + 1) 0 * qI c ρ
  | m + 1, false, c, ρ => nV (c + 1) (m + 1) * nn (c + 1) (m + 1) * sphI (c + 1) ρ
  | m + 1, true, c, ρ => nV (c + 1) (m + 1) * nn (c + 1) (m + 1) * dI c ρ

/-- weight of an outgoing wave -/
noncomputable def wtK : ℕ → Bool → ℕ → ℝ → ℝ
  | 0, false, c, y => (c + 1) * (c + 2) * nV (c + 1) 0 * (2 / Real.pi * sphK (c + 1) y)
  | 0, true, c, y => (c + 1) * (c + 2) * nV (c + 1) 0 * (2 / Real.pi * qK c y)
  | m + 1, false, c, y => nV (c + 1) (m + 1) * nn (c + 1) (m + 1) * (2 / Real.pi * sphK (c + 1) y)
  | m + 1, true, c, y => nV (c + 1) (m + 1) * nn (c + 1) (m + 1) * (2 / Real.pi * dK c y)

/-- the factor by which a row sum exceeds the outgoing weight -/
noncomputable def rowC : ℕ → Bool → ℝ → ℝ
  | 0, false, g => g
  | 0, true, _ => 1
  | m + 1, _, g => g ^ m

/-- modulus of the reflection coefficient of a perfectly conducting sphere -/
noncomputable def pecR : Bool → ℕ → ℝ → ℝ
  | false, c, ρ => Real.pi / 2 * (sphI (c + 1) ρ / sphK (c + 1) ρ)
  | true, c, ρ => Real.pi / 2 * (dI c ρ / dK c ρ)

theorem fab_comm (m : ℕ) (x : ℝ) (P Q : Bool) (c c' : ℕ) : fab m x P Q c c' = fab m x Q P c' c := by
  unfold fab
  rw [eePol_comm, emPol_comm, mul_comm (nV (c + 1) m)]
  by_cases h : P = Q <;> simp [h, eq_comm]

theorem fab_nonneg (m : ℕ) {x : ℝ} (hx : 0 < x) (P Q : Bool) (c c' : ℕ) : 0 ≤ fab m x P Q c c' := by
  unfold fab
  refine mul_nonneg (mul_nonneg (nV_pos (by omega) m).le (nV_pos (by omega) m).le) (lap_nonneg hx fun t ht => ?_)
  split
  · exact eePol_nonneg _ _ m ht.le
  · exact emPol_nonneg _ _ m ht.le

theorem fab_zero (x : ℝ) {P Q : Bool} (h : P ≠ Q) (c c' : ℕ) : fab 0 x P Q c c' = 0 := by
  unfold fab
  rw [if_neg h]
  simp [emPol, lap_zero]

theorem wtI_pos (m : ℕ) (P : Bool) (c : ℕ) {ρ : ℝ} (hρ : 0 < ρ) : 0 < wtI m P c ρ := by
  have h1 := nV_pos (l := c + 1) (by omega) m
  have h2 := nn_pos (c + 1) m
  have h3 := sphI_pos (c + 1) hρ
  have h4 := qI_pos c hρ
  have h5 := dI_pos c hρ
  cases m <;> cases P <;> simp only [wtI] <;> positivity

theorem wtK_pos (m : ℕ) (P : Bool) (c : ℕ) {y : ℝ} (hy : 0 < y) : 0 < wtK m P c y := by
  have h1 := nV_pos (l := c + 1) (by omega) m
  have h2 := nn_pos (c + 1) m
  have h3 := sphK_pos (c + 1) hy
  have h4 := qK_pos c hy
  have h5 := dK_pos c hy
  have := Real.pi_pos
  cases m <;> cases P <;> simp only [wtK] <;> positivity

theorem pecR_pos (P : Bool) (c : ℕ) {ρ : ℝ} (hρ : 0 < ρ) : 0 < pecR P c ρ := by
  have h1 := sphI_pos (c + 1) hρ
  have h2 := dI_pos c hρ
  have h3 := sphK_pos (c + 1) hρ
  have h4 := dK_pos c hρ
  have := Real.pi_pos
  cases P <;> simp only [pecR] <;> positivity

theorem pecR_wt (m : ℕ) (P : Bool) (c : ℕ) {ρ : ℝ} (hρ : 0 < ρ) : pecR P c ρ * wtK m P c ρ = wtI m P c ρ := by
  have h3 := (sphK_pos (c + 1) hρ).ne'
  have h4 := (dK_pos c hρ).ne'
  have := Real.pi_pos.ne'
  have hd : ρ ^ 2 + ((c : ℝ) + 1) * (c + 2) ≠ 0 := by positivity
  cases m <;> cases P <;> simp only [pecR, wtI, wtK]
  · field_simp
  · rw [qI_eq c hρ, qK_eq c hρ]; field_simp
  · field_simp
  · field_simp

/-! ## row sums -/

theorem sum_shift_le {f : ℕ → ℝ} (hf : ∀ c, 0 ≤ f c) (c0 p : ℕ) :
    ∑ s ∈ Finset.range p, f (c0 + s) ≤ ∑ c ∈ Finset.range (c0 + p), f c := by
  have h : ∑ s ∈ Finset.range p, f (c0 + s) = ∑ c ∈ Finset.Ico c0 (c0 + p), f c := by
    rw [Finset.sum_Ico_eq_sum_range, Nat.add_sub_cancel_left]
  rw [h]
  exact Finset.sum_le_sum_of_subset_of_nonneg (fun i hi => Finset.mem_range.mpr (Finset.mem_Ico.mp hi).2) fun _ _ _ => hf _

/-- The row sums over any range of multipoles and both polarisations. -/
theorem row_wt {ρ x : ℝ} (hρ : 0 < ρ) (hx : ρ < x) {m : ℕ} (P : Bool) {a : ℕ} (hm : m ≤ a + 1) (c0 p : ℕ) :
    ∑ s ∈ Finset.range p, (fab m x P false a (c0 + s) * wtI m false (c0 + s) ρ + fab m x P true a (c0 + s) * wtI m true (c0 + s) ρ) ≤
      rowC m P (ρ / (x - ρ)) * wtK m P a (x - ρ) := by
  have hx0 : 0 < x := hρ.trans hx
  have hy : 0 < x - ρ := by linarith
  have ha := nV_pos (l := a + 1) (by omega) m
  refine (sum_shift_le (f := fun c => fab m x P false a c * wtI m false c ρ + fab m x P true a c * wtI m true c ρ)
    (fun c => add_nonneg (mul_nonneg (fab_nonneg m hx0 _ _ _ _) (wtI_pos m _ _ hρ).le)
      (mul_nonneg (fab_nonneg m hx0 _ _ _ _) (wtI_pos m _ _ hρ).le)) c0 p).trans ?_
  cases m with
  | zero =>
    have hsq : ∀ c : ℕ, nV (c + 1) 0 ^ 2 * ((c + 1) * (c + 2)) = 2 * (c : ℝ) + 3 := by
      intro c
      have h := nV_sq (l := c + 1) (by omega) 0
      have hn : nn (c + 1) 0 = 1 := by
        simp [nn, Nat.factorial_ne_zero]
      rw [hn] at h
      push_cast at h
      rw [mul_one] at h
      rw [h]
      field_simp
      ring
    cases P with
    | false =>
      have h := mul_le_mul_of_nonneg_left (row_E_zero hρ hx (c0 + p) (a := a + 1) (by omega)) ha.le
      rw [Finset.mul_sum] at h
      refine (Finset.sum_le_sum fun c _ => ?_).trans (h.trans (le_of_eq ?_))
      · rw [fab_zero x (P := false) (Q := true) (by decide)]
        simp only [fab, wtI, if_true]
        apply le_of_eq
        linear_combination (nV (a + 1) 0 * lap x (eePol (a + 1) (c + 1) 0) * sphI (c + 1) ρ) * hsq c
      · simp only [rowC, wtK]
        push_cast
        have := hy.ne'
        field_simp
        ring
    | true =>
      have h := mul_le_mul_of_nonneg_left (row_M_zero hρ hx (c0 + p) a) ha.le
      rw [Finset.mul_sum] at h
      refine (Finset.sum_le_sum fun c _ => ?_).trans (h.trans (le_of_eq ?_))
      · rw [fab_zero x (P := true) (Q := false) (by decide)]
        simp only [fab, wtI, if_true]
        apply le_of_eq
        linear_combination (nV (a + 1) 0 * lap x (eePol (a + 1) (c + 1) 0) * qI c ρ) * hsq c
      · simp only [rowC, wtK]
        ring
  | succ m =>
    have hsq : ∀ c : ℕ, nV (c + 1) (m + 1) ^ 2 * nn (c + 1) (m + 1) = wB c := by
      intro c
      have h := nV_sq (l := c + 1) (by omega) (m + 1)
      rw [h, wB]
      push_cast
      congr 1
      · ring
      · ring
    cases P with
    | false =>
      have h := mul_le_mul_of_nonneg_left (row_E hρ hx (c0 + p) hm) ha.le
      rw [Finset.mul_sum] at h
      refine (Finset.sum_le_sum fun c _ => ?_).trans (h.trans (le_of_eq ?_))
      · simp only [fab, wtI, if_true, if_neg (show ¬ (false = true) by decide)]
        rw [← hsq c]
        apply le_of_eq
        ring
      · simp only [rowC, wtK]
        rw [div_pow]
        have := hy.ne'
        field_simp
    | true =>
      have h := mul_le_mul_of_nonneg_left (row_M hρ hx (c0 + p) hm) ha.le
      rw [Finset.mul_sum] at h
      refine (Finset.sum_le_sum fun c _ => ?_).trans (h.trans (le_of_eq ?_))
      · simp only [fab, wtI, if_true, if_neg (show ¬ (true = false) by decide)]
        rw [← hsq c]
        apply le_of_eq
        ring
      · simp only [rowC, wtK]
        rw [div_pow]
        have := hy.ne'
        field_simp

/-! ## decay -/

theorem sphK_decay (l : ℕ) {y z : ℝ} (hy : 0 < y) (hyz : y ≤ z) :
    z * sphK l z ≤ Real.exp (-(z - y)) * (y * sphK l y) := by
  have hz : 0 < z := hy.trans_le hyz
  have e : ∀ u : ℝ, 0 < u → u * sphK l u = Real.pi / 2 * Real.exp (-u) *
      ∑ j ∈ Finset.range (l + 1), (((l + j).factorial : ℕ) : ℝ) / ((j.factorial : ℝ) * ((l - j).factorial : ℝ) * (2 * u) ^ j) := by
    intro u hu
    unfold sphK
    have := hu.ne'
    field_simp
  rw [e z hz, e y hy]
  have hs : ∑ j ∈ Finset.range (l + 1), (((l + j).factorial : ℕ) : ℝ) / ((j.factorial : ℝ) * ((l - j).factorial : ℝ) * (2 * z) ^ j) ≤
      ∑ j ∈ Finset.range (l + 1), (((l + j).factorial : ℕ) : ℝ) / ((j.factorial : ℝ) * ((l - j).factorial : ℝ) * (2 * y) ^ j) := by
    refine Finset.sum_le_sum fun j _ => ?_
    gcongr
  have he : Real.exp (-z) = Real.exp (-(z - y)) * Real.exp (-y) := by rw [← Real.exp_add]; ring_nf
  rw [he]
  have hp : 0 ≤ Real.pi / 2 * (Real.exp (-(z - y)) * Real.exp (-y)) := by positivity
  refine (mul_le_mul_of_nonneg_left hs hp).trans (le_of_eq ?_)
  ring

theorem sphK_decay' (l : ℕ) {y z : ℝ} (hy : 0 < y) (hyz : y ≤ z) : sphK l z ≤ Real.exp (-(z - y)) * sphK l y := by
  have h := sphK_decay l hy hyz
  have hz : 0 < z := hy.trans_le hyz
  have h1 : 0 ≤ Real.exp (-(z - y)) * sphK l y := mul_nonneg (Real.exp_pos _).le (sphK_pos l hy).le
  have h2 : y * (Real.exp (-(z - y)) * sphK l y) ≤ z * (Real.exp (-(z - y)) * sphK l y) := mul_le_mul_of_nonneg_right hyz h1
  refine le_of_mul_le_mul_left (h.trans ?_) hz
  linarith

theorem dK_decay (c : ℕ) {y z : ℝ} (hy : 0 < y) (hyz : y ≤ z) : dK c z ≤ Real.exp (-(z - y)) * dK c y := by
  have hz : 0 < z := hy.trans_le hyz
  have h1 := sphK_decay' c hy hyz
  have h2 := sphK_decay' (c + 1) hy hyz
  have h3 : ((c : ℝ) + 1) / z ≤ (c + 1) / y := by gcongr
  have h4 := mul_le_mul h3 h2 (sphK_pos _ hz).le (by positivity)
  unfold dK
  linarith

theorem qK_decay (c : ℕ) {y z : ℝ} (hy : 0 < y) (hyz : y ≤ z) : qK c z ≤ Real.exp (-(z - y)) * qK c y := by
  have hz : 0 < z := hy.trans_le hyz
  have h1 := sphK_decay c hy hyz
  have h2 := sphK_decay' (c + 1) hy hyz
  have h3 := sphK_pos c hy
  have h4 := sphK_pos (c + 1) hy
  unfold qK
  rw [← mul_div_assoc]
  have h5 : z * sphK c z + (c + 1) * sphK (c + 1) z ≤ Real.exp (-(z - y)) * (y * sphK c y + (c + 1) * sphK (c + 1) y) := by
    have := mul_le_mul_of_nonneg_left h2 (show (0 : ℝ) ≤ c + 1 by positivity)
    linarith
  have hyz2 : y ^ 2 ≤ z ^ 2 := by gcongr
  have hE := Real.exp_pos (-(z - y))
  apply div_le_div₀ (by positivity) h5 (by positivity)
  linarith

theorem wtK_decay (m : ℕ) (P : Bool) (c : ℕ) {y z : ℝ} (hy : 0 < y) (hyz : y ≤ z) :
    wtK m P c z ≤ Real.exp (-(z - y)) * wtK m P c y := by
  have h1 := nV_pos (l := c + 1) (by omega) m
  have h2 := nn_pos (c + 1) m
  have h3 := sphK_decay' (c + 1) hy hyz
  have h4 := dK_decay c hy hyz
  have h5 := qK_decay c hy hyz
  have hpi := Real.pi_pos
  cases m <;> cases P <;> simp only [wtK]
  · have := mul_le_mul_of_nonneg_left h3 (show 0 ≤ ((c : ℝ) + 1) * (c + 2) * nV (c + 1) 0 * (2 / Real.pi) by positivity)
    linarith
  · have := mul_le_mul_of_nonneg_left h5 (show 0 ≤ ((c : ℝ) + 1) * (c + 2) * nV (c + 1) 0 * (2 / Real.pi) by positivity)
    linarith
  · rename_i m
    have := mul_le_mul_of_nonneg_left h3 (show 0 ≤ nV (c + 1) (m + 1) * nn (c + 1) (m + 1) * (2 / Real.pi) by positivity)
    linarith
  · rename_i m
    have := mul_le_mul_of_nonneg_left h4 (show 0 ≤ nV (c + 1) (m + 1) * nn (c + 1) (m + 1) * (2 / Real.pi) by positivity)
    linarith

theorem sphI_scale (l : ℕ) {q ρ : ℝ} (hq : 0 ≤ q) (hq1 : q ≤ 1) (hρ : 0 < ρ) : sphI l (q * ρ) ≤ q ^ l * sphI l ρ := by
  have h1 := sphI_hasSum l (q * ρ)
  have h2 := (sphI_hasSum l ρ).mul_left (q ^ l)
  refine hasSum_le (fun n => ?_) h1 h2
  unfold iTerm
  rw [mul_pow, mul_div_assoc]
  refine mul_le_mul_of_nonneg_right ?_ (by positivity)
  exact pow_le_pow_of_le_one hq hq1 (by omega)

theorem dI_scale (c : ℕ) {q ρ : ℝ} (hq : 0 < q) (hq1 : q ≤ 1) (hρ : 0 < ρ) : dI c (q * ρ) ≤ q ^ c * dI c ρ := by
  have h1 := dI_eq c (mul_pos hq hρ)
  have h2 := dI_eq c hρ
  have h3 := sphI_scale c hq.le hq1 hρ
  have h4 := sphI_scale (c + 2) hq.le hq1 hρ
  have h5 : q ^ (c + 2) ≤ q ^ c := pow_le_pow_of_le_one hq.le hq1 (by omega)
  have h6 : sphI (c + 2) (q * ρ) ≤ q ^ c * sphI (c + 2) ρ :=
    h4.trans (mul_le_mul_of_nonneg_right h5 (sphI_pos _ hρ).le)
  have h7 : (2 * (c : ℝ) + 3) * dI c (q * ρ) ≤ (2 * c + 3) * (q ^ c * dI c ρ) := by
    rw [h1, mul_left_comm, h2]
    have a := mul_le_mul_of_nonneg_left h3 (show (0 : ℝ) ≤ c + 2 by positivity)
    have b := mul_le_mul_of_nonneg_left h6 (show (0 : ℝ) ≤ c + 1 by positivity)
    linarith
  exact le_of_mul_le_mul_left h7 (by positivity)

/-- Enlarging the radius by the factor `1/q` increases the reflection coefficient at least by `q^{-c} e^{ρ'-ρ}`. -/
theorem pecR_scale (P : Bool) (c : ℕ) {q ρ : ℝ} (hq : 0 < q) (hq1 : q ≤ 1) (hρ : 0 < ρ) :
    pecR P c (q * ρ) ≤ q ^ c * Real.exp (-(ρ - q * ρ)) * pecR P c ρ := by
  have hqρ := mul_pos hq hρ
  have hle : q * ρ ≤ ρ := by nlinarith
  have hpi := Real.pi_pos
  cases P with
  | false =>
    have h1 := sphI_scale (c + 1) hq.le hq1 hρ
    have h1' : sphI (c + 1) (q * ρ) ≤ q ^ c * sphI (c + 1) ρ :=
      h1.trans (mul_le_mul_of_nonneg_right (pow_le_pow_of_le_one hq.le hq1 (by omega)) (sphI_pos _ hρ).le)
    have h2 := sphK_decay' (c + 1) hqρ hle
    have k1 := sphK_pos (c + 1) hρ
    have k2 := sphK_pos (c + 1) hqρ
    have i1 := sphI_pos (c + 1) hρ
    simp only [pecR]
    have : sphI (c + 1) (q * ρ) / sphK (c + 1) (q * ρ) ≤ q ^ c * Real.exp (-(ρ - q * ρ)) * (sphI (c + 1) ρ / sphK (c + 1) ρ) := by
      rw [div_le_iff₀ k2]
      have h3 : sphI (c + 1) (q * ρ) * sphK (c + 1) ρ ≤ q ^ c * sphI (c + 1) ρ * (Real.exp (-(ρ - q * ρ)) * sphK (c + 1) (q * ρ)) :=
        mul_le_mul h1' h2 k1.le (by positivity)
      rw [← le_div_iff₀ k1] at h3
      refine h3.trans (le_of_eq ?_)
      ring
    have := mul_le_mul_of_nonneg_left this (show 0 ≤ Real.pi / 2 by positivity)
    linarith
  | true =>
    have h1 := dI_scale c hq hq1 hρ
    have h2 := dK_decay c hqρ hle
    have k1 := dK_pos c hρ
    have k2 := dK_pos c hqρ
    have i1 := dI_pos c hρ
    simp only [pecR]
    have : dI c (q * ρ) / dK c (q * ρ) ≤ q ^ c * Real.exp (-(ρ - q * ρ)) * (dI c ρ / dK c ρ) := by
      rw [div_le_iff₀ k2]
      have h3 : dI c (q * ρ) * dK c ρ ≤ q ^ c * dI c ρ * (Real.exp (-(ρ - q * ρ)) * dK c (q * ρ)) :=
        mul_le_mul h1 h2 k1.le (by positivity)
      rw [← le_div_iff₀ k1] at h3
      refine h3.trans (le_of_eq ?_)
      ring
    have := mul_le_mul_of_nonneg_left this (show 0 ≤ Real.pi / 2 by positivity)
    linarith

/-! ## the two-sphere kernel -/

/-- both polarisations interleaved: index `N` is multipole `c0 + N / 2` and polarisation `N mod 2` -/
theorem sum_interleave (f : Bool → ℕ → ℝ) (p : ℕ) :
    ∑ N ∈ Finset.range (2 * p), f N.bodd N.div2 = ∑ s ∈ Finset.range p, (f false s + f true s) := by
  induction p with
  | zero => simp
  | succ p ih =>
    rw [show 2 * (p + 1) = 2 * p + 1 + 1 by ring, Finset.sum_range_succ, Finset.sum_range_succ, ih, Finset.sum_range_succ]
    have h1 : (2 * p).bodd = false := by simp
    have h2 : (2 * p + 1).bodd = true := by simp
    have h3 : (2 * p).div2 = p := by rw [Nat.div2_val]; omega
    have h4 : (2 * p + 1).div2 = p := by rw [Nat.div2_val]; omega
    rw [h1, h2, h3, h4, add_assoc]

theorem sum_interleave_le {f : Bool → ℕ → ℝ} (hf : ∀ P s, 0 ≤ f P s) (p : ℕ) :
    ∑ N : Fin p, f N.1.bodd N.1.div2 ≤ ∑ s ∈ Finset.range p, (f false s + f true s) := by
  rw [← sum_interleave, Finset.sum_range (n := p) (fun N => f N.bodd N.div2) |>.symm]
  exact Finset.sum_le_sum_of_subset_of_nonneg (Finset.range_mono (by omega)) fun _ _ _ => hf _ _

/-- translation coefficients weighted with reflection coefficients `A`, `B` -/
noncomputable def kern (m : ℕ) (x : ℝ) (c0 : ℕ) (A B : Bool → ℕ → ℝ) (i s : ℕ) : ℝ :=
  Real.sqrt (A i.bodd (c0 + i.div2)) * fab m x i.bodd s.bodd (c0 + i.div2) (c0 + s.div2) * Real.sqrt (B s.bodd (c0 + s.div2))

theorem kern_swap (m : ℕ) (x : ℝ) (c0 : ℕ) (A B : Bool → ℕ → ℝ) (i s : ℕ) :
    kern m x c0 A B i s = kern m x c0 B A s i := by
  unfold kern
  rw [fab_comm]
  ring

theorem kern_nonneg {m : ℕ} {x : ℝ} (hx : 0 < x) (c0 : ℕ) (A B : Bool → ℕ → ℝ) (i s : ℕ) : 0 ≤ kern m x c0 A B i s :=
  mul_nonneg (mul_nonneg (Real.sqrt_nonneg _) (fab_nonneg m hx _ _ _ _)) (Real.sqrt_nonneg _)

theorem kern_mono {m : ℕ} {x : ℝ} (hx : 0 < x) (c0 : ℕ) {A B A' B' : Bool → ℕ → ℝ} (hA : ∀ P c, A P c ≤ A' P c)
    (hB : ∀ P c, B P c ≤ B' P c) (i s : ℕ) : kern m x c0 A B i s ≤ kern m x c0 A' B' i s := by
  unfold kern
  have h := fab_nonneg m hx i.bodd s.bodd (c0 + i.div2) (c0 + s.div2)
  have h1 := Real.sqrt_le_sqrt (hA i.bodd (c0 + i.div2))
  have h2 := Real.sqrt_le_sqrt (hB s.bodd (c0 + s.div2))
  gcongr

theorem rowC_nonneg (m : ℕ) (P : Bool) {g : ℝ} (hg : 0 ≤ g) : 0 ≤ rowC m P g := by
  cases m <;> cases P <;> simp only [rowC] <;> positivity

theorem rowC_pos (m : ℕ) (P : Bool) {g : ℝ} (hg : 0 < g) : 0 < rowC m P g := by
  cases m <;> cases P <;> simp only [rowC] <;> positivity

/-- the row weight `√R · wtK = wtI / √R` -/
theorem sqrt_wt (m : ℕ) (P : Bool) (c : ℕ) {ρ : ℝ} (hρ : 0 < ρ) :
    Real.sqrt (pecR P c ρ) * wtK m P c ρ = wtI m P c ρ / Real.sqrt (pecR P c ρ) := by
  have h := pecR_pos P c hρ
  have h1 := Real.sqrt_pos.mpr h
  rw [eq_div_iff h1.ne', ← pecR_wt m P c hρ]
  calc _ = (Real.sqrt (pecR P c ρ) * Real.sqrt (pecR P c ρ)) * wtK m P c ρ := by ring
    _ = _ := by rw [Real.mul_self_sqrt h.le]

theorem kern_row_term {R1 R2 w d dP f : ℝ} (hR : 0 < R2) (hd : d * f = dP * f) :
    Real.sqrt R1 * f * Real.sqrt R2 * (d * (w / Real.sqrt R2)) = dP * Real.sqrt R1 * (f * w) := by
  have hq := (Real.sqrt_pos.mpr hR).ne'
  calc _ = Real.sqrt R1 * (d * f) * w * (Real.sqrt R2 / Real.sqrt R2) := by ring
    _ = _ := by rw [hd, div_self hq]; ring

theorem kern_diag {m : ℕ} {D : Bool → ℝ} (hDm : m = 0 ∨ D false = D true) (x : ℝ) (P Q : Bool) (a b : ℕ) :
    D Q * fab m x P Q a b = D P * fab m x P Q a b := by
  rcases hDm with rfl | hDm
  · by_cases hPQ : P = Q
    · rw [hPQ]
    · rw [fab_zero x hPQ, mul_zero, mul_zero]
  · have : D Q = D P := by cases P <;> cases Q <;> simp [hDm]
    rw [this]

/-- Row sum of the kernel of two perfectly conducting spheres. -/
theorem kern_row {ρ1 ρ2 x : ℝ} (h1 : 0 < ρ1) (h2 : 0 < ρ2) (hx : ρ1 + ρ2 ≤ x) {m c0 : ℕ} (hm : m ≤ c0 + 1) (i p : ℕ)
    (D : Bool → ℝ) (hD : ∀ P, 0 ≤ D P) (hDm : m = 0 ∨ D false = D true) :
    ∑ s : Fin p, kern m x c0 (fun P c => pecR P c ρ1) (fun P c => pecR P c ρ2) i s.1 *
        (D s.1.bodd * (wtI m s.1.bodd (c0 + s.1.div2) ρ2 / Real.sqrt (pecR s.1.bodd (c0 + s.1.div2) ρ2))) ≤
      D i.bodd * (rowC m i.bodd (ρ2 / (x - ρ2)) * (Real.exp (-(x - ρ1 - ρ2)) *
        (wtI m i.bodd (c0 + i.div2) ρ1 / Real.sqrt (pecR i.bodd (c0 + i.div2) ρ1)))) := by
  have hx2 : ρ2 < x := by linarith
  have hx0 : 0 < x := h2.trans hx2
  have hy : 0 < x - ρ2 := by linarith
  unfold kern
  generalize i.bodd = P
  have ha : m ≤ (c0 + i.div2) + 1 := by omega
  generalize c0 + i.div2 = a at ha ⊢
  have hs := Real.sqrt_nonneg (pecR P a ρ1)
  rw [Finset.sum_congr rfl fun (s : Fin p) _ => kern_row_term (R1 := pecR P a ρ1) (w := wtI m s.1.bodd (c0 + s.1.div2) ρ2)
    (pecR_pos s.1.bodd (c0 + s.1.div2) h2) (kern_diag hDm x P s.1.bodd a (c0 + s.1.div2))]
  refine (sum_interleave_le (f := fun Q s => D P * Real.sqrt (pecR P a ρ1) * (fab m x P Q a (c0 + s) * wtI m Q (c0 + s) ρ2))
    (fun Q s => mul_nonneg (mul_nonneg (hD P) hs) (mul_nonneg (fab_nonneg m hx0 _ _ _ _) (wtI_pos m _ _ h2).le)) p).trans ?_
  have hr := row_wt h2 hx2 P (a := a) ha c0 p
  have hk := wtK_decay m P a h1 (show ρ1 ≤ x - ρ2 by linarith)
  have hc := rowC_nonneg m P (div_pos h2 hy).le
  have hr' := hr.trans (mul_le_mul_of_nonneg_left hk hc)
  have hr'' := mul_le_mul_of_nonneg_left hr' (mul_nonneg (hD P) hs)
  rw [Finset.mul_sum] at hr''
  refine (Finset.sum_le_sum fun s _ => ?_).trans (hr''.trans (le_of_eq ?_))
  · exact le_of_eq (mul_add _ _ _).symm
  · rw [← sqrt_wt m P a h1, show x - ρ2 - ρ1 = x - ρ1 - ρ2 by ring]
    ring

/-- the dependence of the contraction constant on `m` -/
noncomputable def gamC (m : ℕ) (ρ1 ρ2 x : ℝ) : ℝ := (ρ1 / (x - ρ1) * (ρ2 / (x - ρ2))) ^ (m - 1)

theorem gam_base {ρ1 ρ2 x : ℝ} (h1 : 0 < ρ1) (h2 : 0 < ρ2) (hx : ρ1 + ρ2 ≤ x) :
    0 < ρ1 / (x - ρ1) * (ρ2 / (x - ρ2)) ∧ ρ1 / (x - ρ1) * (ρ2 / (x - ρ2)) ≤ 1 := by
  have hy1 : 0 < x - ρ1 := by linarith
  have hy2 : 0 < x - ρ2 := by linarith
  refine ⟨by positivity, ?_⟩
  rw [div_mul_div_comm, div_le_one (by positivity)]
  nlinarith

theorem gamC_pos {m : ℕ} {ρ1 ρ2 x : ℝ} (h1 : 0 < ρ1) (h2 : 0 < ρ2) (hx : ρ1 + ρ2 ≤ x) : 0 < gamC m ρ1 ρ2 x :=
  pow_pos (gam_base h1 h2 hx).1 _

theorem gamC_le {m : ℕ} {ρ1 ρ2 x : ℝ} (h1 : 0 < ρ1) (h2 : 0 < ρ2) (hx : ρ1 + ρ2 ≤ x) : gamC m ρ1 ρ2 x ≤ 1 :=
  pow_le_one₀ (gam_base h1 h2 hx).1.le (gam_base h1 h2 hx).2

theorem rowC_mul_le {m : ℕ} {ρ1 ρ2 x : ℝ} (h1 : 0 < ρ1) (h2 : 0 < ρ2) (hx : ρ1 + ρ2 ≤ x) (P : Bool) :
    rowC m P (ρ1 / (x - ρ1)) * rowC m P (ρ2 / (x - ρ2)) ≤ gamC m ρ1 ρ2 x := by
  cases m with
  | zero => cases P <;> simp [rowC, gamC]; exact (gam_base h1 h2 hx).2
  | succ m => simp only [rowC, gamC, Nat.add_sub_cancel]; rw [mul_pow]

/-- Contraction of the kernel, for all reflection coefficients below those of perfect conductors. -/
theorem kern_contr {ρ1 ρ2 x : ℝ} (h1 : 0 < ρ1) (h2 : 0 < ρ2) (hx : ρ1 + ρ2 ≤ x) {m c0 : ℕ} (hm : m ≤ c0 + 1)
    {A B : Bool → ℕ → ℝ} (hA : ∀ P c, A P c ≤ pecR P c ρ1) (hB : ∀ P c, B P c ≤ pecR P c ρ2) :
    Contr (kern m x c0 A B) (Real.exp (-(2 * (x - ρ1 - ρ2))) * gamC m ρ1 ρ2 x) := by
  intro n p z
  have hx0 : 0 < x := by linarith
  have hy2 : 0 < x - ρ2 := by linarith
  have hy1 : 0 < x - ρ1 := by linarith
  have hg := gamC_pos (m := m) h1 h2 hx
  have hE : Real.exp (-(2 * (x - ρ1 - ρ2))) * gamC m ρ1 ρ2 x =
      Real.exp (-(x - ρ1 - ρ2)) * (Real.exp (-(x - ρ1 - ρ2)) * gamC m ρ1 ρ2 x) := by
    rw [← mul_assoc, ← Real.exp_add]; ring_nf
  rw [hE]
  set D : Bool → ℝ := fun P => rowC m P (ρ2 / (x - ρ2)) with hDdef
  have hDp : ∀ P, 0 < D P := fun P => rowC_pos m P (div_pos h2 hy2)
  have hDm : m = 0 ∨ D false = D true := by
    cases m with
    | zero => exact Or.inl rfl
    | succ m => exact Or.inr rfl
  refine schur_test (H := corner (kern m x c0 (fun P c => pecR P c ρ1) (fun P c => pecR P c ρ2)) n p)
    (u := fun i => D i.1.bodd * (wtI m i.1.bodd (c0 + i.1.div2) ρ1 / Real.sqrt (pecR i.1.bodd (c0 + i.1.div2) ρ1)))
    (w := fun s => wtI m s.1.bodd (c0 + s.1.div2) ρ2 / Real.sqrt (pecR s.1.bodd (c0 + s.1.div2) ρ2)) ?_ ?_ ?_ ?_ ?_ z
  · intro i s
    change |kern m x c0 A B i.1 s.1| ≤ _
    rw [abs_of_nonneg (kern_nonneg hx0 _ _ _ _ _)]
    exact kern_mono hx0 c0 hA hB _ _
  · intro i
    exact mul_pos (hDp _) (div_pos (wtI_pos m _ _ h1) (Real.sqrt_pos.mpr (pecR_pos _ _ h1)))
  · positivity
  · intro i
    have h := kern_row h1 h2 hx hm i.1 p (fun _ => 1) (fun _ => zero_le_one) (Or.inr rfl)
    simp only [one_mul] at h
    refine h.trans (le_of_eq ?_)
    simp only [hDdef]
    ring
  · intro s
    have h := kern_row h2 h1 (by linarith : ρ2 + ρ1 ≤ x) hm s.1 n D (fun P => (hDp P).le) hDm
    simp only [kern_swap m x c0 (fun P c => pecR P c ρ2)] at h
    refine h.trans ?_
    have hw := (div_pos (wtI_pos m s.1.bodd (c0 + s.1.div2) h2) (Real.sqrt_pos.mpr (pecR_pos s.1.bodd (c0 + s.1.div2) h2))).le
    have hr := rowC_mul_le (m := m) h1 h2 hx s.1.bodd
    have he := Real.exp_pos (-(x - ρ1 - ρ2))
    rw [show x - ρ2 - ρ1 = x - ρ1 - ρ2 by ring]
    have := mul_le_mul_of_nonneg_left hr (mul_nonneg he.le hw)
    simp only [hDdef]
    linarith

/-! ## Hilbert-Schmidt norm -/

/-- Pointwise bound of the kernel in terms of reflection coefficients at enlarged radii. -/
theorem fab_sq_le {σ1 σ2 : ℝ} (h1 : 0 < σ1) (h2 : 0 < σ2) {m a b : ℕ} (hma : m ≤ a + 1) (hmb : m ≤ b + 1) (P Q : Bool) :
    fab m (σ1 + σ2) P Q a b ^ 2 * (pecR P a σ1 * pecR Q b σ2) ≤ 1 := by
  have hx0 : 0 < σ1 + σ2 := by linarith
  have hf := fab_nonneg m hx0 P Q a b
  -- single terms of the row sums
  have single : ∀ {τ1 τ2 : ℝ}, 0 < τ1 → 0 < τ2 → ∀ {a b : ℕ}, m ≤ a + 1 → ∀ P Q : Bool,
      fab m (τ1 + τ2) P Q a b * wtI m Q b τ2 ≤ rowC m P (τ2 / τ1) * wtK m P a τ1 := by
    intro τ1 τ2 t1 t2 a b hm P Q
    have hp : 0 < τ1 + τ2 := by linarith
    have h := row_wt t2 (show τ2 < τ1 + τ2 by linarith) P hm b 1
    rw [Finset.sum_range_one, add_sub_cancel_right, add_zero] at h
    have p1 := mul_nonneg (fab_nonneg m hp P false a b) (wtI_pos m false b t2).le
    have p2 := mul_nonneg (fab_nonneg m hp P true a b) (wtI_pos m true b t2).le
    cases Q <;> linarith
  have s1 := single h1 h2 (b := b) hma P Q
  have s2 := single h2 h1 (b := a) hmb Q P
  rw [add_comm σ2 σ1, fab_comm m (σ1 + σ2) Q P b a] at s2
  have hwI1 := wtI_pos m P a h1
  have hwI2 := wtI_pos m Q b h2
  have hK1 := wtK_pos m P a h1
  have hK2 := wtK_pos m Q b h2
  have e1 := pecR_wt m P a h1
  have e2 := pecR_wt m Q b h2
  have hprod := mul_le_mul s1 s2 (mul_nonneg hf hwI1.le) (mul_nonneg (rowC_nonneg m P (div_pos h2 h1).le) hK1.le)
  by_cases hz : fab m (σ1 + σ2) P Q a b = 0
  · rw [hz]; norm_num
  have hC : rowC m P (σ2 / σ1) * rowC m Q (σ1 / σ2) = 1 := by
    have hg : σ2 / σ1 * (σ1 / σ2) = 1 := by field_simp
    cases m with
    | zero =>
      have hPQ : P = Q := by
        by_contra h
        exact hz (fab_zero _ h _ _)
      subst hPQ
      cases P <;> simp [rowC, hg]
    | succ m => simp only [rowC]; rw [← mul_pow, hg, one_pow]
  have hkey : fab m (σ1 + σ2) P Q a b ^ 2 * (pecR P a σ1 * pecR Q b σ2) * (wtK m P a σ1 * wtK m Q b σ2) ≤
      1 * (wtK m P a σ1 * wtK m Q b σ2) := by
    calc _ = fab m (σ1 + σ2) P Q a b ^ 2 * ((pecR P a σ1 * wtK m P a σ1) * (pecR Q b σ2 * wtK m Q b σ2)) := by ring
      _ = fab m (σ1 + σ2) P Q a b * wtI m Q b σ2 * (fab m (σ1 + σ2) P Q a b * wtI m P a σ1) := by rw [e1, e2]; ring
      _ ≤ _ := hprod
      _ = (rowC m P (σ2 / σ1) * rowC m Q (σ1 / σ2)) * (wtK m P a σ1 * wtK m Q b σ2) := by ring
      _ = _ := by rw [hC]
  exact le_of_mul_le_mul_right hkey (mul_pos hK1 hK2)

/-- Pointwise bound of the kernel: with half the gap `δ = x - ρ1 - ρ2` added to each radius. -/
theorem kern_sq_le {ρ1 ρ2 x : ℝ} (h1 : 0 < ρ1) (h2 : 0 < ρ2) (hx : ρ1 + ρ2 ≤ x) {m c0 : ℕ} (hm : m ≤ c0 + 1)
    {A B : Bool → ℕ → ℝ} (hA : ∀ P c, A P c ≤ pecR P c ρ1) (hB : ∀ P c, B P c ≤ pecR P c ρ2) (i s : ℕ) :
    kern m x c0 A B i s ^ 2 ≤ Real.exp (-(x - ρ1 - ρ2)) *
      ((ρ1 / (ρ1 + (x - ρ1 - ρ2) / 2)) ^ (c0 + i.div2) * (ρ2 / (ρ2 + (x - ρ1 - ρ2) / 2)) ^ (c0 + s.div2)) := by
  set δ := x - ρ1 - ρ2 with hδ
  have hδ0 : 0 ≤ δ := by rw [hδ]; linarith
  set σ1 := ρ1 + δ / 2 with hσ1
  set σ2 := ρ2 + δ / 2 with hσ2
  have s1 : 0 < σ1 := by positivity
  have s2 : 0 < σ2 := by positivity
  have hx0 : 0 < x := by linarith
  have hxe : x = σ1 + σ2 := by rw [hσ1, hσ2, hδ]; ring
  have hle := kern_mono hx0 c0 (m := m) hA hB i s
  have hn := kern_nonneg hx0 (m := m) c0 A B i s
  have q1 : ρ1 / σ1 * σ1 = ρ1 := by field_simp
  have q2 : ρ2 / σ2 * σ2 = ρ2 := by field_simp
  have r1 := pecR_scale i.bodd (c0 + i.div2) (q := ρ1 / σ1) (by positivity) (by rw [div_le_one s1]; linarith) s1
  have r2 := pecR_scale s.bodd (c0 + s.div2) (q := ρ2 / σ2) (by positivity) (by rw [div_le_one s2]; linarith) s2
  rw [q1] at r1
  rw [q2] at r2
  have hf := fab_sq_le s1 s2 (m := m) (a := c0 + i.div2) (b := c0 + s.div2) (by omega) (by omega) i.bodd s.bodd
  rw [← hxe] at hf
  have p1 := pecR_pos i.bodd (c0 + i.div2) h1
  have p2 := pecR_pos s.bodd (c0 + s.div2) h2
  have p1' := pecR_pos i.bodd (c0 + i.div2) s1
  have p2' := pecR_pos s.bodd (c0 + s.div2) s2
  calc kern m x c0 A B i s ^ 2 ≤ kern m x c0 (fun P c => pecR P c ρ1) (fun P c => pecR P c ρ2) i s ^ 2 := by gcongr
    _ = fab m x i.bodd s.bodd (c0 + i.div2) (c0 + s.div2) ^ 2 * (pecR i.bodd (c0 + i.div2) ρ1 * pecR s.bodd (c0 + s.div2) ρ2) := by
        unfold kern
        rw [mul_pow, mul_pow, Real.sq_sqrt p1.le, Real.sq_sqrt p2.le]
        ring
    _ ≤ fab m x i.bodd s.bodd (c0 + i.div2) (c0 + s.div2) ^ 2 *
        (((ρ1 / σ1) ^ (c0 + i.div2) * Real.exp (-(σ1 - ρ1)) * pecR i.bodd (c0 + i.div2) σ1) *
          ((ρ2 / σ2) ^ (c0 + s.div2) * Real.exp (-(σ2 - ρ2)) * pecR s.bodd (c0 + s.div2) σ2)) := by
        gcongr
    _ = fab m x i.bodd s.bodd (c0 + i.div2) (c0 + s.div2) ^ 2 * (pecR i.bodd (c0 + i.div2) σ1 * pecR s.bodd (c0 + s.div2) σ2) *
        (Real.exp (-(σ1 - ρ1)) * Real.exp (-(σ2 - ρ2)) * ((ρ1 / σ1) ^ (c0 + i.div2) * (ρ2 / σ2) ^ (c0 + s.div2))) := by ring
    _ ≤ 1 * (Real.exp (-(σ1 - ρ1)) * Real.exp (-(σ2 - ρ2)) * ((ρ1 / σ1) ^ (c0 + i.div2) * (ρ2 / σ2) ^ (c0 + s.div2))) := by
        gcongr
    _ = _ := by
        rw [one_mul, ← Real.exp_add, show -(σ1 - ρ1) + -(σ2 - ρ2) = -δ by rw [hσ1, hσ2]; ring]

theorem geom_pair_le {q : ℝ} (hq : 0 ≤ q) (hq1 : q < 1) (c0 n : ℕ) :
    ∑ i : Fin n, q ^ (c0 + i.1.div2) ≤ 2 * q ^ c0 / (1 - q) := by
  refine (sum_interleave_le (f := fun _ s => q ^ (c0 + s)) (fun _ _ => pow_nonneg hq _) n).trans ?_
  have h : ∑ s ∈ Finset.range n, (q ^ (c0 + s) + q ^ (c0 + s)) = 2 * q ^ c0 * ∑ s ∈ Finset.range n, q ^ s := by
    rw [Finset.mul_sum]
    exact Finset.sum_congr rfl fun s _ => by rw [pow_add]; ring
  rw [h, geom_sum_eq hq1.ne, div_eq_mul_inv (2 * q ^ c0)]
  refine mul_le_mul_of_nonneg_left ?_ (by positivity)
  rw [← neg_div_neg_eq, neg_sub, neg_sub, inv_eq_one_div]
  exact div_le_div_of_nonneg_right (by linarith [pow_nonneg hq n]) (by linarith)

/-- The Hilbert-Schmidt norm of every section of the kernel. -/
theorem kern_hs {ρ1 ρ2 x : ℝ} (h1 : 0 < ρ1) (h2 : 0 < ρ2) (hx : ρ1 + ρ2 < x) {m c0 : ℕ} (hm : m ≤ c0 + 1)
    {A B : Bool → ℕ → ℝ} (hA : ∀ P c, A P c ≤ pecR P c ρ1) (hB : ∀ P c, B P c ≤ pecR P c ρ2) (n p : ℕ) :
    ∑ i, ∑ s, corner (kern m x c0 A B) n p i s ^ 2 ≤ Real.exp (-(x - ρ1 - ρ2)) *
      (2 * (ρ1 / (ρ1 + (x - ρ1 - ρ2) / 2)) ^ c0 / (1 - ρ1 / (ρ1 + (x - ρ1 - ρ2) / 2)) *
        (2 * (ρ2 / (ρ2 + (x - ρ1 - ρ2) / 2)) ^ c0 / (1 - ρ2 / (ρ2 + (x - ρ1 - ρ2) / 2)))) := by
  have hδ : 0 < x - ρ1 - ρ2 := by linarith
  have lt1 : ∀ {ρ : ℝ}, 0 < ρ → 0 ≤ ρ / (ρ + (x - ρ1 - ρ2) / 2) ∧ ρ / (ρ + (x - ρ1 - ρ2) / 2) < 1 := by
    intro ρ hρ
    refine ⟨by positivity, ?_⟩
    rw [div_lt_one (by positivity)]
    linarith
  have g1 := geom_pair_le (lt1 h1).1 (lt1 h1).2 c0 n
  have g2 := geom_pair_le (lt1 h2).1 (lt1 h2).2 c0 p
  have hb : ∑ i, ∑ s, corner (kern m x c0 A B) n p i s ^ 2 ≤ ∑ i : Fin n, ∑ s : Fin p, Real.exp (-(x - ρ1 - ρ2)) *
      ((ρ1 / (ρ1 + (x - ρ1 - ρ2) / 2)) ^ (c0 + i.1.div2) * (ρ2 / (ρ2 + (x - ρ1 - ρ2) / 2)) ^ (c0 + s.1.div2)) :=
    Finset.sum_le_sum fun i _ => Finset.sum_le_sum fun s _ => kern_sq_le h1 h2 hx.le hm hA hB i.1 s.1
  refine hb.trans ?_
  simp only [← Finset.mul_sum, ← Finset.sum_mul]
  refine mul_le_mul_of_nonneg_left ?_ (Real.exp_pos _).le
  refine mul_le_mul g1 g2 (Finset.sum_nonneg fun _ _ => pow_nonneg (lt1 h2).1 _) ?_
  have := (lt1 h1).1
  have := (lt1 h1).2
  have h3 : 0 < 1 - ρ1 / (ρ1 + (x - ρ1 - ρ2) / 2) := by linarith
  positivity

end CasSph
