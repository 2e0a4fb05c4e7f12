import Verif.Lemmas.LapI
import Verif.Lemmas.FiniteContr

/-! # Shifts of regular multipoles (independent of the model)

`tI m x P Q a b` couples the regular vector multipoles `(a, P)` and `(b, Q)` of order `m` at centres a distance `x` apart.
As a function of `x` it solves the linear system with the matrix of the multiplication by `cos θ`. -/

namespace CasSph

open Polynomial Spec Nat

local notation "D" => Polynomial.derivative (R := ℝ)

noncomputable def tI (m : ℕ) (x : ℝ) (P Q : Bool) (a b : ℕ) : ℝ :=
  -((-1) ^ m * (nV a m * nV b m * lapI x (if P = Q then eePol a b m else emPol a b m)))

/-- coupling of the degrees `l` and `l+1` -/
noncomputable def t1 (m l : ℕ) : ℝ :=
  Real.sqrt ((l : ℝ) * (l + 2) * (((l : ℝ) + 1) ^ 2 - m ^ 2) / (((l : ℝ) + 1) ^ 2 * ((2 * l + 1) * (2 * l + 3))))

/-- coupling of the polarisations -/
noncomputable def t2 (m l : ℕ) : ℝ := m / ((l : ℝ) * (l + 1))

theorem t1_nonneg (m l : ℕ) : 0 ≤ t1 m l := Real.sqrt_nonneg _

theorem t1_sq {m l : ℕ} (h : m ≤ l + 1) :
    t1 m l ^ 2 = (l : ℝ) * (l + 2) * (((l : ℝ) + 1) ^ 2 - m ^ 2) / (((l : ℝ) + 1) ^ 2 * ((2 * l + 1) * (2 * l + 3))) := by
  unfold t1
  have hm : (m : ℝ) ≤ l + 1 := by exact_mod_cast h
  have hm0 : (0 : ℝ) ≤ m := Nat.cast_nonneg m
  refine Real.sq_sqrt (div_nonneg (mul_nonneg (by positivity) ?_) (by positivity))
  nlinarith

theorem t1_zero (m : ℕ) : t1 m 0 = 0 := by simp [t1]

theorem t1_top (l : ℕ) : t1 (l + 1) l = 0 := by simp [t1]

theorem tI_comm (m : ℕ) (x : ℝ) (P Q : Bool) (a b : ℕ) : tI m x P Q a b = tI m x Q P b a := by
  unfold tI
  rw [eePol_comm, emPol_comm, mul_comm (nV a m)]
  by_cases h : P = Q <;> simp [h, eq_comm]

theorem tI_flip (m : ℕ) (x : ℝ) (P Q : Bool) (a b : ℕ) : tI m x (!P) (!Q) a b = tI m x P Q a b := by
  unfold tI
  cases P <;> cases Q <;> simp

theorem tP_none {l m : ℕ} (h : l < m) : tP l m = 0 := by
  unfold tP
  rw [dl_none (by omega), dl_none h]
  simp

theorem eePol_none {a b m : ℕ} (h : b < m) : eePol a b m = 0 := by
  obtain ⟨k, rfl⟩ : ∃ k, m = k + 1 := ⟨m - 1, by omega⟩
  simp only [eePol, tP_none h, dl_none h]
  simp

theorem emPol_none {a b m : ℕ} (h : b < m) : emPol a b m = 0 := by
  obtain ⟨k, rfl⟩ : ∃ k, m = k + 1 := ⟨m - 1, by omega⟩
  simp only [emPol, tP_none h, dl_none h]
  simp

/-! ## multiplication by the argument -/

theorem tP_mul (n m : ℕ) : C (2 * (n : ℝ) + 3) * tP (n + 1) m =
    C (((n : ℝ) + 1) * (n + 2 - m)) * dl (n + 2) m - C (((n : ℝ) + 2) * (n + 1 + m)) * dl n m := by
  have h1 := tP_down n m
  have h2 := tP_up (n + 1) m
  simp only [Nat.cast_add, Nat.cast_one, map_mul, map_add, map_sub, map_one, map_ofNat, map_natCast] at *
  linear_combination ((n : ℝ[X]) + 2) * h1 + ((n : ℝ[X]) + 1) * h2

theorem X_pi (n m : ℕ) : C ((2 * (n : ℝ) + 3) * (n + 1) * (n + 2)) * (X * dl (n + 1) m) =
    C (((n : ℝ) + 1) ^ 2 * (n + 2 - m)) * dl (n + 2) m + C (((n : ℝ) + 2) ^ 2 * (n + 1 + m)) * dl n m +
      C (2 * (n : ℝ) + 3) * tP (n + 1) m := by
  have h1 := dl_X_mul n m
  have h2 := tP_mul n m
  simp only [map_mul, map_add, map_sub, map_one, map_ofNat, map_natCast, map_pow] at *
  linear_combination ((n : ℝ[X]) + 1) * ((n : ℝ[X]) + 2) * h1 - h2

theorem X_tau (n m : ℕ) : C ((2 * (n : ℝ) + 3) * (n + 1) * (n + 2)) * (X * tP (n + 1) m) =
    C (((n : ℝ) + 1) ^ 2 * (n + 2 - m)) * tP (n + 2) m + C (((n : ℝ) + 2) ^ 2 * (n + 1 + m)) * tP n m +
      C ((2 * (n : ℝ) + 3) * m ^ 2) * dl (n + 1) m := by
  have h1 := tP_mul n m
  have h2 := tP_down (n + 1) m
  have h3 := tP_up n m
  simp only [Nat.cast_add, Nat.cast_one, map_mul, map_add, map_sub, map_one, map_ofNat, map_natCast, map_pow] at *
  linear_combination ((n : ℝ[X]) + 1) * ((n : ℝ[X]) + 2) * X * h1 - ((n : ℝ[X]) + 1) ^ 2 * (n + 2 - m) * h2 -
    ((n : ℝ[X]) + 2) ^ 2 * (n + 1 + m) * h3

theorem X_eePol (a n m : ℕ) : C ((2 * (n : ℝ) + 3) * (n + 1) * (n + 2)) * (X * eePol a (n + 1) m) =
    C (((n : ℝ) + 1) ^ 2 * (n + 2 - m)) * eePol a (n + 2) m + C (((n : ℝ) + 2) ^ 2 * (n + 1 + m)) * eePol a n m +
      C ((2 * (n : ℝ) + 3) * m) * emPol a (n + 1) m := by
  cases m with
  | zero =>
    have h := dl_X_mul n 1
    simp only [eePol, emPol]
    simp only [Nat.cast_zero, Nat.cast_one, map_mul, map_add, map_sub, map_one, map_ofNat, map_natCast, map_pow, map_zero] at *
    linear_combination uPol * dl a 1 * ((n : ℝ[X]) + 1) * ((n : ℝ[X]) + 2) * h
  | succ m =>
    have h1 := X_pi n (m + 1)
    have h2 := X_tau n (m + 1)
    simp only [eePol, emPol]
    simp only [Nat.cast_add, Nat.cast_one, map_mul, map_add, map_sub, map_one, map_ofNat, map_natCast, map_pow] at *
    linear_combination uPol ^ m * tP a (m + 1) * h2 + uPol ^ m * ((m : ℝ[X]) + 1) ^ 2 * dl a (m + 1) * h1

theorem X_emPol (a n m : ℕ) : C ((2 * (n : ℝ) + 3) * (n + 1) * (n + 2)) * (X * emPol a (n + 1) m) =
    C (((n : ℝ) + 1) ^ 2 * (n + 2 - m)) * emPol a (n + 2) m + C (((n : ℝ) + 2) ^ 2 * (n + 1 + m)) * emPol a n m +
      C ((2 * (n : ℝ) + 3) * m) * eePol a (n + 1) m := by
  cases m with
  | zero => simp [emPol]
  | succ m =>
    have h1 := X_pi n (m + 1)
    have h2 := X_tau n (m + 1)
    simp only [eePol, emPol]
    simp only [Nat.cast_add, Nat.cast_one, map_mul, map_add, map_sub, map_one, map_ofNat, map_natCast, map_pow] at *
    linear_combination uPol ^ m * ((m : ℝ[X]) + 1) * dl a (m + 1) * h2 + uPol ^ m * ((m : ℝ[X]) + 1) * tP a (m + 1) * h1

/-! ## normalisation -/

theorem nV_sq' {l : ℕ} (hl : 1 ≤ l) (m : ℕ) : nV l m ^ 2 = (2 * l + 1) / (l * (l + 1) * nn l m) := by
  unfold nV
  have := nn_pos l m
  have : (0 : ℝ) < l := by exact_mod_cast hl
  rw [Real.sq_sqrt (by positivity)]

theorem nV_step {m l : ℕ} (hl : 1 ≤ l) (hm : m ≤ l) :
    nV l m * ((l : ℝ) * (l + 1 - m)) = t1 m l * nV (l + 1) m * ((2 * l + 1) * (l + 1)) ∧
      nV (l + 1) m * (((l : ℝ) + 2) * (l + 1 + m)) = t1 m l * nV l m * ((2 * l + 3) * (l + 1)) := by
  have hl' : (0 : ℝ) < l := by exact_mod_cast hl
  have hm' : (m : ℝ) ≤ l := by exact_mod_cast hm
  have hd : (0 : ℝ) < l + 1 - m := by linarith
  have hs : (0 : ℝ) < l + 1 + m := by positivity
  have h1 := nV_sq' hl m
  have h2 := nV_sq' (l := l + 1) (by omega) m
  have h3 := t1_sq (m := m) (l := l) (by omega)
  have h4 := nn_up hm
  have n1 := nn_pos l m
  have n2 := nn_pos (l + 1) m
  have e : nn (l + 1) m = (l + 1 + m) * nn l m / (l + 1 - m) := by rw [eq_div_iff hd.ne']; linarith
  push_cast at h2
  have p1 := (nV_pos hl m).le
  have p2 := (nV_pos (l := l + 1) (by omega) m).le
  have p3 := t1_nonneg m l
  constructor
  · refine (sq_eq_sq₀ (by positivity) (by positivity)).mp ?_
    simp only [mul_pow]
    rw [h1, h2, h3, e]
    field_simp
    ring
  · refine (sq_eq_sq₀ (by positivity) (by positivity)).mp ?_
    simp only [mul_pow]
    rw [h1, h2, h3, e]
    field_simp
    ring

/-- the linear system -/
theorem tI_deriv {m n : ℕ} (hm : m ≤ n + 1) (x : ℝ) (P Q : Bool) (a : ℕ) :
    HasDerivAt (fun x => tI m x P Q a (n + 1)) (-(t1 m (n + 1) * tI m x P Q a (n + 2) + t1 m n * tI m x P Q a n +
      t2 m (n + 1) * tI m x P (!Q) a (n + 1))) x := by
  have h := (((lapI_deriv x (if P = Q then eePol a (n + 1) m else emPol a (n + 1) m)).const_mul (nV a m * nV (n + 1) m)).const_mul
    ((-1 : ℝ) ^ m)).neg
  refine HasDerivAt.congr_deriv (f := fun x => tI m x P Q a (n + 1)) h ?_
  have key : ∀ p0 p1 p2 q1 : ℝ[X], (n < m → p0 = 0) → (n = 0 → m = 0 → p0 = 0) →
      C ((2 * (n : ℝ) + 3) * (n + 1) * (n + 2)) * (X * p1) =
        C (((n : ℝ) + 1) ^ 2 * (n + 2 - m)) * p2 + C (((n : ℝ) + 2) ^ 2 * (n + 1 + m)) * p0 + C ((2 * (n : ℝ) + 3) * m) * q1 →
      nV (n + 1) m * lapI x (X * p1) = t1 m (n + 1) * (nV (n + 2) m * lapI x p2) + t1 m n * (nV n m * lapI x p0) +
        t2 m (n + 1) * (nV (n + 1) m * lapI x q1) := by
    intro p0 p1 p2 q1 hz hz0 he
    have hl := congrArg (lapI x) he
    rw [lapI_add, lapI_add, lapI_C_mul, lapI_C_mul, lapI_C_mul, lapI_C_mul] at hl
    have hu := (nV_step (m := m) (l := n + 1) (by omega) hm).1
    push_cast at hu
    have c0 : (0 : ℝ) ≤ n := Nat.cast_nonneg n
    have hz' : nV (n + 1) m * (((n : ℝ) + 2) * (n + 1 + m)) * lapI x p0 = t1 m n * nV n m * ((2 * n + 3) * (n + 1)) * lapI x p0 := by
      by_cases hlt : n < m
      · rw [hz hlt, lapI_zero, mul_zero, mul_zero]
      · by_cases hn : n = 0
        · rw [hz0 hn (by omega), lapI_zero, mul_zero, mul_zero]
        · rw [(nV_step (m := m) (l := n) (by omega) (by omega)).2]
    unfold t2
    push_cast
    have d1 : (2 * (n : ℝ) + 3) ≠ 0 := by positivity
    have d2 : ((n : ℝ) + 1) ≠ 0 := by positivity
    have d3 : ((n : ℝ) + 2) ≠ 0 := by positivity
    have d : (2 * (n : ℝ) + 3) * (n + 1) * (n + 2) ≠ 0 := by positivity
    refine mul_left_cancel₀ d ?_
    have e3 : (2 * (n : ℝ) + 3) * (n + 1) * (n + 2) * (m / ((n + 1) * (n + 1 + 1)) * (nV (n + 1) m * lapI x q1)) =
        (2 * n + 3) * m * (nV (n + 1) m * lapI x q1) := by
      rw [show (n : ℝ) + 1 + 1 = n + 2 by ring]
      field_simp
    linear_combination nV (n + 1) m * hl + ((n : ℝ) + 1) * lapI x p2 * hu + ((n : ℝ) + 2) * hz' - e3
  have z1 : n = 0 → m = 0 → eePol a n m = 0 := by
    rintro rfl rfl
    simp only [eePol, dl_none (l := 0) (m := 1) (by omega)]
    simp
  have z2 : n = 0 → m = 0 → emPol a n m = 0 := by
    rintro rfl rfl
    simp only [emPol]
  unfold tI
  by_cases hPQ : P = Q
  · have hn : ¬ P = !Q := by subst hPQ; cases P <;> decide
    have k := key _ _ _ _ (fun h => eePol_none h) z1 (X_eePol a n m)
    simp only [if_pos hPQ, if_neg hn]
    linear_combination (-1) ^ m * nV a m * k
  · have hn : P = !Q := by cases P <;> cases Q <;> simp_all
    have k := key _ _ _ _ (fun h => emPol_none h) z2 (X_emPol a n m)
    simp only [if_neg hPQ, if_pos hn]
    linear_combination (-1) ^ m * nV a m * k

/-! ## expansions -/

theorem gF_pint_self {a m : ℕ} (h : m ≤ a) : pint (gF a a m) = 2 * nn a m / (2 * (a : ℝ) + 1) := by
  have := gF_low (lp := a) (m := m) (d := 0) h
  rw [legendre_zero, mul_one, add_zero] at this
  rw [this]
  have e : legLead 0 = 1 := by simp [legLead]
  have := (legLead_pos a).ne'
  have h1 : ((a ! : ℕ) : ℝ) ≠ 0 := by positivity
  have h2 : (((a - m)! : ℕ) : ℝ) ≠ 0 := by positivity
  rw [e]
  unfold nn
  field_simp

theorem gF_pint_ne {a b m : ℕ} (ha : m ≤ a) (hb : m ≤ b) (h : a ≠ b) : pint (gF a b m) = 0 := by
  rcases Nat.lt_or_gt_of_ne h with h | h
  · have := gF_small (l := b) (lp := a) (m := m) (p := 0) hb ha (by omega)
    rwa [legendre_zero, mul_one, gF_comm] at this
  · have := gF_small (l := a) (lp := b) (m := m) (p := 0) ha hb (by omega)
    rwa [legendre_zero, mul_one] at this

theorem lapI_gF (x : ℝ) (a b m : ℕ) : lapI x (gF a b m) = ∑ i ∈ Finset.range (min a b + 1),
    gC a b m (lppMin a b + 2 * i) * ((-1) ^ (lppMin a b + 2 * i) * sphI (lppMin a b + 2 * i) x) := by
  conv_lhs => rw [gF_expansion]
  rw [lapI_sum]
  refine Finset.sum_congr rfl fun i _ => ?_
  rw [lapI_C_mul, lapI_legendre]

theorem lapI_eePol (x : ℝ) (a b m : ℕ) : -2 * (-1) ^ m * lapI x (eePol a b m) = ∑ i ∈ Finset.range (min a b + 1),
    ((a * (a + 1) + b * (b + 1) : ℝ) - ((lppMin a b + 2 * i : ℕ) : ℝ) * (((lppMin a b + 2 * i : ℕ) : ℝ) + 1)) *
      (gC a b m (lppMin a b + 2 * i) * ((-1) ^ (lppMin a b + 2 * i) * sphI (lppMin a b + 2 * i) x)) := by
  have e2 : C ((a : ℝ) * (a + 1) + b * (b + 1)) * gF a b m - D (uPol * D (gF a b m)) = C (-2 * (-1) ^ m) * eePol a b m := by
    have h := eePol_ode a b m
    rw [gF_uPol, derivative_C_mul, mul_left_comm uPol, derivative_C_mul]
    simp only [map_mul, map_neg, map_ofNat] at *
    linear_combination C ((-1 : ℝ) ^ m) * h
  have e : C ((a : ℝ) * (a + 1) + b * (b + 1)) * gF a b m - D (uPol * D (gF a b m)) =
      ∑ i ∈ Finset.range (min a b + 1), C (((a * (a + 1) + b * (b + 1) : ℝ) -
        ((lppMin a b + 2 * i : ℕ) : ℝ) * (((lppMin a b + 2 * i : ℕ) : ℝ) + 1)) * gC a b m (lppMin a b + 2 * i)) *
          legendre (lppMin a b + 2 * i) := by
    rw [gF_expansion, derivative_sum, Finset.mul_sum, Finset.mul_sum, derivative_sum, ← Finset.sum_sub_distrib]
    refine Finset.sum_congr rfl fun i _ => ?_
    rw [derivative_C_mul, mul_left_comm uPol, derivative_C_mul, legendre_op]
    simp only [map_mul, map_sub]
    ring
  rw [← lapI_C_mul, ← e2, e, lapI_sum]
  refine Finset.sum_congr rfl fun i _ => ?_
  rw [lapI_C_mul, lapI_legendre]
  ring

theorem lapI_emPol (x : ℝ) (a b m : ℕ) : (-1) ^ m * lapI x (emPol a b m) = m * x * lapI x (gF a b m) := by
  have hsgn : ((-1 : ℝ) ^ m) * (-1) ^ m = 1 := by rw [← mul_pow]; simp
  have hg : lapI x (uPol ^ m * (dl a m * dl b m)) = (-1) ^ m * lapI x (gF a b m) := by
    rw [gF_uPol, lapI_C_mul]
    linear_combination -(lapI x (uPol ^ m * (dl a m * dl b m))) * hsgn
  cases m with
  | zero => simp [emPol, lapI_zero]
  | succ m =>
    rw [← emPol_ode, lapI_C_mul, lapI_parts, hg]
    · linear_combination (((m + 1 : ℕ) : ℝ) * x * lapI x (gF a b (m + 1))) * hsgn
    · rw [eval_mul, eval_pow, uPol_eval]; simp
    · rw [eval_mul, eval_pow, uPol_eval]; simp

/-- without a shift nothing is coupled -/
theorem tI_at_zero {m a b : ℕ} (ha : 1 ≤ a) (hb : 1 ≤ b) (hma : m ≤ a) (hmb : m ≤ b) (P Q : Bool) :
    tI m 0 P Q a b = if P = Q ∧ a = b then 1 else 0 := by
  unfold tI
  by_cases hPQ : P = Q
  · have e2 : -((-1) ^ m * lapI 0 (eePol a b m)) = (a * (a + 1) + b * (b + 1)) * pint (gF a b m) / 4 := by
      have h := congrArg (lapI 0) (eePol_ode a b m)
      have hsgn : ((-1 : ℝ) ^ m) * (-1) ^ m = 1 := by rw [← mul_pow]; simp
      rw [lapI_sub, lapI_neg, lapI_C_mul, lapI_parts 0 (by rw [eval_mul, uPol_eval]; simp) (by rw [eval_mul, uPol_eval]; simp),
        zero_mul, show (2 : ℝ[X]) = C 2 from (map_ofNat C 2).symm, lapI_C_mul] at h
      have hg : lapI 0 (gF a b m) = (-1) ^ m * lapI 0 (uPol ^ m * (dl a m * dl b m)) := by rw [gF_uPol, lapI_C_mul]
      rw [lapI_at_zero (gF a b m)] at hg
      linear_combination -(1 / 2) * (-1) ^ m * h - (1 / 2) * (a * (a + 1) + b * (b + 1)) * hg
    by_cases hab : a = b
    · subst hab
      rw [if_pos hPQ, if_pos ⟨hPQ, rfl⟩]
      rw [gF_pint_self hma] at e2
      have h := nV_sq ha m
      have ha' : (0 : ℝ) < a := by exact_mod_cast ha
      calc _ = nV a m ^ 2 * -((-1) ^ m * lapI 0 (eePol a a m)) := by ring
        _ = (nV a m ^ 2 * nn a m) * (a * (a + 1)) / (2 * a + 1) := by rw [e2]; field_simp; ring
        _ = 1 := by rw [h]; field_simp
    · rw [if_pos hPQ, if_neg (by tauto)]
      rw [gF_pint_ne hma hmb hab] at e2
      linear_combination nV a m * nV b m * e2
  · rw [if_neg hPQ, if_neg (by tauto)]
    have h := lapI_emPol 0 a b m
    linear_combination -(nV a m * nV b m) * h

/-! ## decay with the degree -/

theorem gC_bound {a m : ℕ} (ha : 1 ≤ a) : ∃ M : ℝ, 0 ≤ M ∧ ∀ b k : ℕ, 1 ≤ b → m ≤ b →
    |nV a m * nV b m * gC a b m k| ≤ M * (2 * k + 1) := by
  obtain ⟨M, hM⟩ : ∃ M, ∀ t ∈ Set.Icc (-1 : ℝ) 1, |(dl a m).eval t| ≤ M := by
    obtain ⟨M, hM⟩ := (isCompact_Icc (a := (-1 : ℝ)) (b := 1)).exists_bound_of_continuousOn (dl a m).continuous.continuousOn
    exact ⟨M, fun t ht => by simpa using hM t ht⟩
  have hM0 : 0 ≤ M := (abs_nonneg _).trans (hM 1 ⟨by norm_num, le_rfl⟩)
  have hn := (nV_pos ha m).le
  refine ⟨nV a m * M, mul_nonneg hn hM0, fun b k hb hmb => ?_⟩
  have hnb := (nV_pos hb m).le
  have h := pint_abs_le (p := C (nV b m) * (gF a b m * legendre k)) (M := M / 2)
    (q := C (nV b m ^ 2) * gF b b m + legendre k * legendre k) ?_
  · rw [pint_C_mul, pint_add, pint_C_mul, gF_pint_self hmb, legendre_norm] at h
    have e : nV b m ^ 2 * (2 * nn b m / (2 * (b : ℝ) + 1)) = 2 / (b * (b + 1)) := by
      have := nV_sq hb m
      have hb' : (0 : ℝ) < b := by exact_mod_cast hb
      calc _ = (nV b m ^ 2 * nn b m) * (2 / (2 * (b : ℝ) + 1)) := by ring
        _ = _ := by rw [this]; field_simp
    rw [e] at h
    have hb1 : (1 : ℝ) ≤ b := by exact_mod_cast hb
    have i1 : 2 / ((b : ℝ) * (b + 1)) ≤ 1 := by
      rw [div_le_one (by positivity)]; nlinarith
    have i2 : 2 / (2 * (k : ℝ) + 1) ≤ 2 := by
      rw [div_le_iff₀ (by positivity)]
      have : (0 : ℝ) ≤ k := Nat.cast_nonneg k
      linarith
    have h2 : |nV b m * pint (gF a b m * legendre k)| ≤ M * 2 := by
      refine h.trans ?_
      have := mul_le_mul_of_nonneg_left (add_le_add i1 i2) (by positivity : 0 ≤ M / 2)
      linarith
    have e2 : nV a m * nV b m * gC a b m k = nV a m * ((2 * (k : ℝ) + 1) / 2) * (nV b m * pint (gF a b m * legendre k)) := by
      unfold gC; ring
    rw [e2, abs_mul, abs_of_nonneg (by positivity)]
    calc _ ≤ nV a m * ((2 * (k : ℝ) + 1) / 2) * (M * 2) := mul_le_mul_of_nonneg_left h2 (by positivity)
      _ = _ := by ring
  · intro t ht
    have hw : 0 ≤ wPol.eval t ∧ wPol.eval t ≤ 1 := by
      simp only [wPol, eval_sub, eval_one, eval_pow, eval_X]
      constructor <;> nlinarith [ht.1, ht.2]
    have hwm : 0 ≤ wPol.eval t ^ m ∧ wPol.eval t ^ m ≤ 1 := ⟨pow_nonneg hw.1 m, pow_le_one₀ hw.1 hw.2⟩
    have e : (C (nV b m) * (gF a b m * legendre k)).eval t =
        (dl a m).eval t * (wPol.eval t ^ m * ((nV b m * (dl b m).eval t) * (legendre k).eval t)) := by
      unfold gF dl; simp only [eval_mul, eval_C, eval_pow]; ring
    have e' : (C (nV b m ^ 2) * gF b b m + legendre k * legendre k).eval t =
        wPol.eval t ^ m * (nV b m * (dl b m).eval t) ^ 2 + (legendre k).eval t ^ 2 := by
      unfold gF dl; simp only [eval_mul, eval_add, eval_C, eval_pow]; ring
    rw [e, e', abs_mul, abs_mul, abs_mul (nV b m * (dl b m).eval t), abs_of_nonneg hwm.1]
    set y := nV b m * (dl b m).eval t
    set z := (legendre k).eval t
    have h1 : wPol.eval t ^ m * (|y| * |z|) ≤ (wPol.eval t ^ m * y ^ 2 + z ^ 2) / 2 := by
      have h3 : 2 * (|y| * |z|) ≤ y ^ 2 + z ^ 2 := by
        have := two_mul_le_add_sq |y| |z|
        rw [sq_abs, sq_abs] at this
        linarith
      have h4 := mul_le_mul_of_nonneg_left h3 hwm.1
      have h5 : wPol.eval t ^ m * z ^ 2 ≤ z ^ 2 := mul_le_of_le_one_left (sq_nonneg z) hwm.2
      linarith
    calc _ ≤ M * ((wPol.eval t ^ m * y ^ 2 + z ^ 2) / 2) := mul_le_mul (hM t ht) h1 (mul_nonneg hwm.1 (by positivity)) hM0
      _ = _ := by ring

theorem tI_bound {a m : ℕ} (ha : 1 ≤ a) (X : ℝ) : ∃ K : ℝ, 0 ≤ K ∧ ∀ b : ℕ, a ≤ b → m ≤ b → ∀ x, 0 < x → x ≤ X →
    ∀ P Q, |tI m x P Q a b| ≤ K * (b + 1) ^ 3 * sphI (b - a) x := by
  obtain ⟨M, hM, hb⟩ := gC_bound (m := m) ha
  by_cases hX : 0 ≤ X
  swap
  · exact ⟨0, le_rfl, fun b _ _ x h1 h2 => absurd (h1.le.trans h2) hX⟩
  refine ⟨((a : ℝ) + 1) * (2 * (a + 1) * M) * (2 * (a + 1) ^ 2 + m * X), by positivity, fun b hab hmb x hx hxX P Q => ?_⟩
  have hb1 : 1 ≤ b := ha.trans hab
  have hmin : min a b = a := min_eq_left hab
  have hlp : lppMin a b = b - a := by unfold lppMin; omega
  have ca : (0 : ℝ) ≤ a := Nat.cast_nonneg a
  have cb : (0 : ℝ) ≤ b := Nat.cast_nonneg b
  have hsp := (sphI_pos (b - a) hx).le
  have term : ∀ i ∈ Finset.range (min a b + 1), |nV a m * nV b m * gC a b m (lppMin a b + 2 * i) *
      ((-1) ^ (lppMin a b + 2 * i) * sphI (lppMin a b + 2 * i) x)| ≤ (2 * (a + 1) * M) * (b + 1) * sphI (b - a) x := by
    intro i hi
    have hi' : i ≤ a := by rw [hmin] at hi; have := Finset.mem_range.mp hi; omega
    rw [abs_mul, abs_mul ((-1 : ℝ) ^ _), abs_pow, abs_neg, abs_one, one_pow, one_mul, abs_of_pos (sphI_pos _ hx), hlp]
    refine mul_le_mul ?_ (sphI_anti (by omega) hx) (sphI_pos _ hx).le (by positivity)
    refine (hb b _ hb1 hmb).trans ?_
    have : ((b - a + 2 * i : ℕ) : ℝ) ≤ a + b := by
      have : b - a + 2 * i ≤ a + b := by omega
      exact_mod_cast this
    have h2 : 2 * ((b - a + 2 * i : ℕ) : ℝ) + 1 ≤ 2 * (a + 1) * (b + 1) := by nlinarith
    calc _ ≤ M * (2 * (a + 1) * (b + 1)) := mul_le_mul_of_nonneg_left h2 hM
      _ = _ := by ring
  have hsum : ∀ c : ℕ → ℝ, ∀ B : ℝ, 0 ≤ B → (∀ i ∈ Finset.range (min a b + 1), |c i| ≤ B) →
      |∑ i ∈ Finset.range (min a b + 1), c i * (nV a m * nV b m * gC a b m (lppMin a b + 2 * i) *
        ((-1) ^ (lppMin a b + 2 * i) * sphI (lppMin a b + 2 * i) x))| ≤ (a + 1) * (B * ((2 * (a + 1) * M) * (b + 1) * sphI (b - a) x)) := by
    intro c B hB hc
    refine (Finset.abs_sum_le_sum_abs _ _).trans ?_
    calc _ ≤ ∑ i ∈ Finset.range (min a b + 1), B * ((2 * (a + 1) * M) * (b + 1) * sphI (b - a) x) := by
          refine Finset.sum_le_sum fun i hi => ?_
          rw [abs_mul]
          exact mul_le_mul (hc i hi) (term i hi) (abs_nonneg _) hB
      _ = _ := by rw [Finset.sum_const, Finset.card_range, hmin, nsmul_eq_mul]; push_cast; ring
  have hfin : ∀ B : ℝ, 0 ≤ B → B ≤ (2 * (a + 1) ^ 2 + m * X) * (b + 1) ^ 2 →
      (a + 1) * (B * ((2 * (a + 1) * M) * (b + 1) * sphI (b - a) x)) ≤
        ((a : ℝ) + 1) * (2 * (a + 1) * M) * (2 * (a + 1) ^ 2 + m * X) * (b + 1) ^ 3 * sphI (b - a) x := by
    intro B _ hB
    have := mul_le_mul_of_nonneg_left hB (by positivity : 0 ≤ ((a : ℝ) + 1) * ((2 * (a + 1) * M) * (b + 1) * sphI (b - a) x))
    calc _ = ((a : ℝ) + 1) * ((2 * (a + 1) * M) * (b + 1) * sphI (b - a) x) * B := by ring
      _ ≤ _ := this
      _ = _ := by ring
  unfold tI
  by_cases hPQ : P = Q
  · rw [if_pos hPQ]
    have e : -((-1) ^ m * (nV a m * nV b m * lapI x (eePol a b m))) = ∑ i ∈ Finset.range (min a b + 1),
        (((a * (a + 1) + b * (b + 1) : ℝ) - ((lppMin a b + 2 * i : ℕ) : ℝ) * (((lppMin a b + 2 * i : ℕ) : ℝ) + 1)) / 2) *
          (nV a m * nV b m * gC a b m (lppMin a b + 2 * i) * ((-1) ^ (lppMin a b + 2 * i) * sphI (lppMin a b + 2 * i) x)) := by
      have h := lapI_eePol x a b m
      calc _ = nV a m * nV b m / 2 * (-2 * (-1) ^ m * lapI x (eePol a b m)) := by ring
        _ = _ := by
          rw [h, Finset.mul_sum]
          refine Finset.sum_congr rfl fun i _ => ?_
          ring
    rw [e]
    refine (hsum _ (2 * (a + 1) ^ 2 * (b + 1) ^ 2) (by positivity) fun i hi => ?_).trans (hfin _ (by positivity) ?_)
    · have hi' : i ≤ a := by rw [hmin] at hi; have := Finset.mem_range.mp hi; omega
      have hk : ((lppMin a b + 2 * i : ℕ) : ℝ) ≤ a + b := by
        have : lppMin a b + 2 * i ≤ a + b := by omega
        exact_mod_cast this
      have hk0 : (0 : ℝ) ≤ ((lppMin a b + 2 * i : ℕ) : ℝ) := Nat.cast_nonneg _
      generalize ((lppMin a b + 2 * i : ℕ) : ℝ) = k at *
      rw [_root_.abs_le]
      have hkk : k * (k + 1) ≤ (a + b) * (a + b + 1) := mul_le_mul hk (by linarith) (by linarith) (by linarith)
      have hk1 : 0 ≤ k * (k + 1) := by positivity
      have hab0 : (0 : ℝ) ≤ a * b := by positivity
      have hab2 : (0 : ℝ) ≤ a * b * (a * b) := by positivity
      have hab3 : (0 : ℝ) ≤ a * (a * b) := by positivity
      have hab4 : (0 : ℝ) ≤ b * (a * b) := by positivity
      constructor <;> nlinarith
    · have : (0 : ℝ) ≤ m * X * (b + 1) ^ 2 := by positivity
      nlinarith
  · rw [if_neg hPQ]
    have e : -((-1) ^ m * (nV a m * nV b m * lapI x (emPol a b m))) = ∑ i ∈ Finset.range (min a b + 1),
        (-(m * x)) * (nV a m * nV b m * gC a b m (lppMin a b + 2 * i) * ((-1) ^ (lppMin a b + 2 * i) * sphI (lppMin a b + 2 * i) x)) := by
      have h := lapI_emPol x a b m
      calc _ = -(nV a m * nV b m) * ((-1) ^ m * lapI x (emPol a b m)) := by ring
        _ = _ := by
          rw [h, lapI_gF, Finset.mul_sum, Finset.mul_sum]
          refine Finset.sum_congr rfl fun i _ => ?_
          ring
    rw [e]
    refine (hsum _ (m * X) (by positivity) fun i hi => ?_).trans (hfin _ (by positivity) ?_)
    · rw [abs_neg, abs_of_nonneg (by positivity)]
      exact mul_le_mul_of_nonneg_left hxX (Nat.cast_nonneg m)
    · have h1 : (1 : ℝ) ≤ (b + 1) ^ 2 := by nlinarith
      have h2 : (0 : ℝ) ≤ m * X := by positivity
      have h3 : (0 : ℝ) ≤ 2 * (a + 1) ^ 2 * (b + 1) ^ 2 := by positivity
      nlinarith

end CasSph
