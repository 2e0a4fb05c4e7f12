import Verif.Lemmas.Legendre
import Verif.Lemmas.Gaunt

/-! # The recursion for the integrals of three Legendre functions -/

namespace CasSph

open Polynomial Spec

local notation "D" => (derivative (R := ℝ))

/-- `1 - x²` -/
noncomputable def wPol : ℝ[X] := 1 - X ^ 2

theorem wPol_ne : wPol ≠ 0 := by
  intro h
  have := congrArg (eval 0) h
  simp [wPol] at this

theorem wPol_deriv : D wPol = -(C 2 * X) := by
  unfold wPol
  simp [derivative_pow]

theorem wPol_eval_one : wPol.eval 1 = 0 := by simp [wPol]
theorem wPol_eval_neg_one : wPol.eval (-1) = 0 := by simp [wPol]

theorem w_deriv_pow (m : ℕ) : wPol * D (wPol ^ m) = -(C (2 * (m : ℝ)) * X * wPol ^ m) := by
  cases m with
  | zero => simp
  | succ m =>
    rw [derivative_pow, wPol_deriv]
    simp only [Nat.add_sub_cancel, pow_succ, C_mul]
    push_cast
    ring

theorem w_cancel {p q : ℝ[X]} (h : wPol * p = wPol * q) : p = q := mul_left_cancel₀ wPol_ne h

theorem w_dvd_deriv {m : ℕ} {v : ℝ[X]} (h : wPol ^ (m + 1) ∣ v) : wPol ^ m ∣ D v := by
  obtain ⟨u, rfl⟩ := h
  rw [derivative_mul, derivative_pow]
  refine dvd_add ?_ ?_
  · simp only [Nat.add_sub_cancel]
    exact ⟨C (((m + 1 : ℕ) : ℝ)) * D wPol * u, by ring⟩
  · exact ⟨wPol * D u, by ring⟩

/-- iterated integration by parts -/
theorem pint_parts_iter (m : ℕ) : ∀ (v g : ℝ[X]), wPol ^ m ∣ v →
    pint (v * derivative^[m] g) = (-1) ^ m * pint (derivative^[m] v * g) := by
  induction m with
  | zero => intro v g _; simp
  | succ m ih =>
    intro v g hv
    have hw : wPol ∣ v := (dvd_pow_self wPol (Nat.succ_ne_zero m)).trans hv
    have e1 : v.eval 1 = 0 := by obtain ⟨u, rfl⟩ := hw; rw [eval_mul, wPol_eval_one, zero_mul]
    have e2 : v.eval (-1) = 0 := by obtain ⟨u, rfl⟩ := hw; rw [eval_mul, wPol_eval_neg_one, zero_mul]
    rw [Function.iterate_succ_apply', Function.iterate_succ_apply]
    have h := pint_parts v (derivative^[m] g) (by rw [eval_mul, e1, zero_mul]) (by rw [eval_mul, e2, zero_mul])
    rw [ih (D v) g (w_dvd_deriv hv)] at h
    rw [pow_succ, mul_neg_one, neg_mul, h, neg_neg]

theorem natDegree_w : wPol.natDegree ≤ 2 := by
  unfold wPol
  refine (natDegree_sub_le _ _).trans ?_
  simp

/-! ## The differential equation of the product -/

theorem legendre_assoc_ode (l m : ℕ) : wPol * D (D (derivative^[m] (legendre l))) =
    C (2 * ((m : ℝ) + 1)) * X * D (derivative^[m] (legendre l)) -
      C ((l : ℝ) * (l + 1) - m * (m + 1)) * derivative^[m] (legendre l) := by
  induction m with
  | zero =>
    have h := legendre_ode l
    unfold legL at h
    rw [← wPol, derivative_mul, wPol_deriv] at h
    simp only [Function.iterate_zero, id, Nat.cast_zero, zero_add, mul_one, sub_zero]
    linear_combination h
  | succ m ih =>
    rw [Function.iterate_succ_apply']
    set y := derivative^[m] (legendre l)
    have h := congrArg D ih
    rw [derivative_mul, wPol_deriv, map_sub, derivative_mul, derivative_C_mul, derivative_C_mul, derivative_X] at h
    push_cast
    simp only [C_add, C_mul, C_sub, map_ofNat, map_one, mul_one] at *
    linear_combination h

/-- `(1-x²) d/dx - m x`: up to a factor `(1-x²)^{m/2}` the operator `(1-x²) d/dx` on the associated functions. -/
noncomputable def nab (m : ℕ) (y : ℝ[X]) : ℝ[X] := wPol * D y - C (m : ℝ) * X * y

theorem nab_nab (l m : ℕ) : nab m (nab m (derivative^[m] (legendre l))) =
    (C ((m : ℝ) ^ 2) - C ((l : ℝ) * (l + 1)) * wPol) * derivative^[m] (legendre l) := by
  have h := legendre_assoc_ode l m
  set y := derivative^[m] (legendre l)
  unfold nab
  rw [map_sub, derivative_mul, derivative_mul, derivative_C_mul, derivative_X, wPol_deriv]
  have hw : wPol = 1 - X ^ 2 := rfl
  simp only [C_add, C_mul, C_sub, C_pow, map_ofNat, map_one] at *
  linear_combination wPol * h + (C (m : ℝ)) ^ 2 * y * (hw)

theorem w_deriv_mul (m : ℕ) (y z : ℝ[X]) :
    wPol * D (wPol ^ m * (y * z)) = wPol ^ m * (nab m y * z + y * nab m z) := by
  have h := w_deriv_pow m
  unfold nab
  rw [derivative_mul, derivative_mul]
  simp only [C_mul, map_ofNat] at *
  linear_combination y * z * h

theorem product_ode {m : ℕ} {a b : ℝ} {y z : ℝ[X]}
    (hy : nab m (nab m y) = (C ((m : ℝ) ^ 2) - C a * wPol) * y)
    (hz : nab m (nab m z) = (C ((m : ℝ) ^ 2) - C b * wPol) * z) :
    let F := wPol ^ m * (y * z)
    D (D (wPol * (legL F + C (a + b) * F))) =
      C (4 * (m : ℝ) ^ 2) * D (D F) - C (a + b) * legL F - C ((b - a) ^ 2) * F := by
  intro F
  set y1 := nab m y
  set z1 := nab m z
  have hF : wPol * D F = wPol ^ m * (y1 * z + y * z1) := w_deriv_mul m y z
  have hL : wPol * legL F = wPol ^ m * ((nab m y1 * z + y1 * z1) + (y1 * z1 + y * nab m z1)) := by
    unfold legL
    rw [← wPol, hF, mul_add, map_add, mul_add, w_deriv_mul, w_deriv_mul]
    ring
  have h1 : wPol * (legL F + C (a + b) * F) = C (2 * (m : ℝ) ^ 2) * F + C 2 * (wPol ^ m * (y1 * z1)) := by
    rw [mul_add, hL, hy, hz]
    simp only [F, C_add, C_mul, C_pow, map_ofNat]
    ring
  have hK : wPol * D (wPol ^ m * (y1 * z1)) = wPol ^ m * (nab m y1 * z1 + y1 * nab m z1) := w_deriv_mul m y1 z1
  have h2 : D (wPol * (legL F + C (a + b) * F)) =
      C (4 * (m : ℝ) ^ 2) * D F - C (a + b) * (wPol * D F) - C (b - a) * (wPol ^ m * (y1 * z) - wPol ^ m * (y * z1)) := by
    refine w_cancel ?_
    rw [h1, map_add, derivative_C_mul, derivative_C_mul, mul_add, mul_left_comm, mul_left_comm wPol (C 2), hK, hy, hz]
    simp only [C_add, C_sub, C_mul, C_pow, map_ofNat] at *
    linear_combination (-(2 * C (m : ℝ) ^ 2) + (C a + C b) * wPol) * hF
  rw [h2, map_sub, map_sub, derivative_C_mul, derivative_C_mul, derivative_C_mul,
    (derivative_sub : D (wPol ^ m * (y1 * z) - wPol ^ m * (y * z1)) = _)]
  refine w_cancel ?_
  have e1 := w_deriv_mul m y1 z
  have e2 := w_deriv_mul m y z1
  rw [hy] at e1
  rw [hz] at e2
  have e3 : D (wPol * D F) = legL F := rfl
  rw [e3]
  simp only [C_add, C_sub, C_mul, C_pow, map_ofNat] at *
  simp only [F]
  linear_combination (-(C b - C a)) * (e1 - e2)

/-! ## The recursion -/

/-- twofold antiderivative of the Legendre polynomial of degree `p + 2`, vanishing with its derivative at `±1` -/
noncomputable def legQ (p : ℕ) : ℝ[X] :=
  C (1 / ((2 * (p : ℝ) + 5) * (2 * p + 7))) * legendre (p + 4) - C (2 / ((2 * (p : ℝ) + 3) * (2 * p + 7))) * legendre (p + 2) +
    C (1 / ((2 * (p : ℝ) + 3) * (2 * p + 5))) * legendre p

theorem legQ_deriv (p : ℕ) : D (legQ p) = C (1 / (2 * (p : ℝ) + 5)) * (legendre (p + 3) - legendre (p + 1)) := by
  have h1 := legendre_sum_rule p
  have h2 := legendre_sum_rule (p + 2)
  push_cast at h2
  unfold legQ
  rw [map_add, map_sub, derivative_C_mul, derivative_C_mul, derivative_C_mul]
  have hp : (2 * (p : ℝ) + 3) ≠ 0 := by positivity
  have hp' : (2 * (p : ℝ) + 7) ≠ 0 := by positivity
  have e1 : D (legendre (p + 4)) = C (2 * (p : ℝ) + 7) * legendre (p + 3) + D (legendre (p + 2)) := by
    rw [← sub_eq_iff_eq_add, show (2 * (p : ℝ) + 7) = 2 * ((p : ℝ) + 2) + 3 by ring]; exact h2
  have e2 : D (legendre p) = D (legendre (p + 2)) - C (2 * (p : ℝ) + 3) * legendre (p + 1) := by
    rw [← h1]; ring
  rw [e1, e2]
  have c1 : C (1 / ((2 * (p : ℝ) + 5) * (2 * p + 7))) * C (2 * (p : ℝ) + 7) = C (1 / (2 * (p : ℝ) + 5)) := by
    rw [← C_mul]; congr 1; field_simp
  have c2 : C (1 / ((2 * (p : ℝ) + 3) * (2 * p + 5))) * C (2 * (p : ℝ) + 3) = C (1 / (2 * (p : ℝ) + 5)) := by
    rw [← C_mul]; congr 1; field_simp
  have c3 : C (1 / ((2 * (p : ℝ) + 5) * (2 * p + 7))) - C (2 / ((2 * (p : ℝ) + 3) * (2 * p + 7))) +
      C (1 / ((2 * (p : ℝ) + 3) * (2 * p + 5))) = 0 := by
    rw [← C_sub, ← C_add, ← C_0]; congr 1; field_simp; ring
  linear_combination legendre (p + 3) * c1 - legendre (p + 1) * c2 + D (legendre (p + 2)) * c3

theorem legQ_deriv2 (p : ℕ) : D (D (legQ p)) = legendre (p + 2) := by
  rw [legQ_deriv, derivative_C_mul, map_sub]
  have h := legendre_sum_rule (p + 1)
  push_cast at h
  rw [show p + 3 = p + 1 + 2 by ring, h, show p + 1 + 1 = p + 2 by ring, ← mul_assoc, ← C_mul]
  rw [show 1 / (2 * (p : ℝ) + 5) * (2 * ((p : ℝ) + 1) + 3) = 1 by
    rw [show 2 * ((p : ℝ) + 1) + 3 = 2 * p + 5 by ring]; exact one_div_mul_cancel (by positivity), C_1, one_mul]

theorem legQ_eval (p : ℕ) : (legQ p).eval 1 = 0 ∧ (legQ p).eval (-1) = 0 := by
  unfold legQ
  simp only [eval_add, eval_sub, eval_mul, eval_C, legendre_eval_one, legendre_eval_neg_one, pow_add]
  constructor
  · field_simp; ring
  · field_simp; ring

theorem legQ_deriv_eval (p : ℕ) : (D (legQ p)).eval 1 = 0 ∧ (D (legQ p)).eval (-1) = 0 := by
  rw [legQ_deriv]
  simp only [eval_sub, eval_mul, eval_C, legendre_eval_one, legendre_eval_neg_one, pow_add]
  constructor
  · simp
  · ring

theorem pint_deriv2 (g q : ℝ[X]) (h : q.eval 1 = 0 ∧ q.eval (-1) = 0) (h' : (D q).eval 1 = 0 ∧ (D q).eval (-1) = 0) :
    pint (D (D g) * q) = pint (g * D (D q)) := by
  rw [pint_parts _ _ (by rw [eval_mul, h.1, mul_zero]) (by rw [eval_mul, h.2, mul_zero]),
    pint_parts _ _ (by rw [eval_mul, h'.1, mul_zero]) (by rw [eval_mul, h'.2, mul_zero]), neg_neg]

/-- `x² P_n` as a combination of Legendre polynomials, `n = p + 2` -/
theorem x2_legendre (p : ℕ) : X ^ 2 * legendre (p + 2) =
    C (((p : ℝ) + 3) * (p + 4) / ((2 * p + 5) * (2 * p + 7))) * legendre (p + 4) +
    C (((p : ℝ) + 3) ^ 2 / ((2 * p + 5) * (2 * p + 7)) + ((p : ℝ) + 2) ^ 2 / ((2 * p + 5) * (2 * p + 3))) * legendre (p + 2) +
    C (((p : ℝ) + 2) * (p + 1) / ((2 * p + 5) * (2 * p + 3))) * legendre p := by
  have b0 := bonnet p
  have b1 := bonnet (p + 1)
  have b2 := bonnet (p + 2)
  push_cast at *
  refine C_cancel (a := (2 * (p : ℝ) + 3) * (2 * p + 5) * (2 * p + 7)) (by positivity) ?_
  rw [mul_add (C _) (_ + _), mul_add (C _) (C _ * _), ← mul_assoc (C _) (C _) (legendre (p + 4)),
    ← mul_assoc (C _) (C _) (legendre (p + 2)), ← mul_assoc (C _) (C _) (legendre p), ← C_mul,
    ← C_mul, ← C_mul]
  rw [show (2 * (p : ℝ) + 3) * (2 * p + 5) * (2 * p + 7) * (((p : ℝ) + 3) * (p + 4) / ((2 * p + 5) * (2 * p + 7))) =
      (2 * (p : ℝ) + 3) * ((p + 3) * (p + 4)) by field_simp,
    show (2 * (p : ℝ) + 3) * (2 * p + 5) * (2 * p + 7) * (((p : ℝ) + 3) ^ 2 / ((2 * p + 5) * (2 * p + 7)) +
      ((p : ℝ) + 2) ^ 2 / ((2 * p + 5) * (2 * p + 3))) = (2 * (p : ℝ) + 3) * (p + 3) ^ 2 + (2 * p + 7) * (p + 2) ^ 2 by field_simp,
    show (2 * (p : ℝ) + 3) * (2 * p + 5) * (2 * p + 7) * (((p : ℝ) + 2) * (p + 1) / ((2 * p + 5) * (2 * p + 3))) =
      (2 * (p : ℝ) + 7) * ((p + 2) * (p + 1)) by field_simp]
  rw [show (p : ℝ) + 1 + 2 = p + 3 by ring, show 2 * ((p : ℝ) + 1) + 3 = 2 * p + 5 by ring, show (p : ℝ) + 1 + 1 = p + 2 by ring] at b1
  rw [show (p : ℝ) + 2 + 2 = p + 4 by ring, show 2 * ((p : ℝ) + 2) + 3 = 2 * p + 7 by ring, show (p : ℝ) + 2 + 1 = p + 3 by ring] at b2
  simp only [C_add, C_mul, C_pow, map_ofNat, map_one] at *
  simp only [show p + 1 + 2 = p + 3 by ring, show p + 1 + 1 = p + 2 by ring, show p + 2 + 2 = p + 4 by ring] at *
  linear_combination (-(2 * C (p : ℝ) + 3) * (2 * C (p : ℝ) + 7) * X) * b1 -
    (2 * C (p : ℝ) + 3) * (C (p : ℝ) + 3) * b2 - (2 * C (p : ℝ) + 7) * (C (p : ℝ) + 2) * b0

/-- The rational identity behind the middle coefficient of `pint_recursion`. -/
theorem rec_middle {P s d M : ℝ} (h3 : 2 * P + 3 ≠ 0) (h5 : 2 * P + 5 ≠ 0) (h7 : 2 * P + 7 ≠ 0) :
    -(4 * M ^ 2 + (((P + 2) ^ 4 - (2 * s + 1) * (P + 2) ^ 2 + d ^ 2) / ((2 * P + 3) * (2 * P + 5)) +
      ((P + 3) ^ 4 - (2 * s + 1) * (P + 3) ^ 2 + d ^ 2) / ((2 * P + 5) * (2 * P + 7)))) =
    -((P + 2) * (P + 2 + 1)) +
      ((P + 3) ^ 2 / ((2 * P + 5) * (2 * P + 7)) + (P + 2) ^ 2 / ((2 * P + 5) * (2 * P + 3))) * ((P + 2) * (P + 2 + 1)) +
      s * (1 - ((P + 3) ^ 2 / ((2 * P + 5) * (2 * P + 7)) + (P + 2) ^ 2 / ((2 * P + 5) * (2 * P + 3)))) -
      (4 * M ^ 2 - s * (2 / ((2 * P + 3) * (2 * P + 7)) * ((P + 2) * (P + 2 + 1))) +
        d ^ 2 * (2 / ((2 * P + 3) * (2 * P + 7)))) := by
  generalize ha : 2 * P + 3 = a at *
  generalize hb : 2 * P + 5 = b at *
  generalize hc : 2 * P + 7 = c at *
  field_simp
  subst ha hb hc
  ring

/-- The recursion for the integrals `I_p` of a function obeying the equation of `product_ode` with Legendre polynomials. -/
theorem pint_recursion {F : ℝ[X]} {m : ℕ} {s d : ℝ}
    (hF : D (D (wPol * (legL F + C s * F))) = C (4 * (m : ℝ) ^ 2) * D (D F) - C s * legL F - C (d ^ 2) * F) (p : ℕ) :
    let N : ℝ → ℝ := fun n => n ^ 4 - (2 * s + 1) * n ^ 2 + d ^ 2
    N (p + 4) / ((2 * p + 5) * (2 * p + 7)) * pint (F * legendre (p + 4)) -
      (4 * m ^ 2 + (N (p + 2) / ((2 * p + 3) * (2 * p + 5)) + N (p + 3) / ((2 * p + 5) * (2 * p + 7)))) * pint (F * legendre (p + 2)) +
      N (p + 1) / ((2 * p + 3) * (2 * p + 5)) * pint (F * legendre p) = 0 := by
  intro N
  have hode := fun n : ℕ => legendre_ode n
  have h := congrArg (fun g => pint (g * legQ p)) hF
  simp only [sub_mul] at h
  rw [pint_deriv2 _ _ (legQ_eval p) (legQ_deriv_eval p), legQ_deriv2, pint_sub, pint_sub, mul_assoc (C _) (D (D F)), pint_C_mul,
    pint_deriv2 _ _ (legQ_eval p) (legQ_deriv_eval p), legQ_deriv2, mul_assoc (C s), pint_C_mul, pint_legL,
    mul_assoc (C (d ^ 2)), pint_C_mul] at h
  have hw : wPol * legendre (p + 2) = legendre (p + 2) - X ^ 2 * legendre (p + 2) := by unfold wPol; ring
  rw [x2_legendre] at hw
  have e1 : pint (wPol * (legL F + C s * F) * legendre (p + 2)) =
      pint (F * legL (wPol * legendre (p + 2))) + s * pint (F * (wPol * legendre (p + 2))) := by
    rw [← pint_legL, ← pint_C_mul, ← pint_add]
    congr 1
    ring
  rw [e1, hw] at h
  unfold legQ at h
  simp only [legL_add, legL_sub, legL_C_mul, hode, mul_add F, mul_sub F, pint_add, pint_sub] at h
  have e2 : ∀ (a : ℝ) (q : ℝ[X]), pint (F * (C a * q)) = a * pint (F * q) := fun a q => by
    rw [mul_left_comm, pint_C_mul]
  have e3 : ∀ (a : ℝ) (q : ℝ[X]), pint (F * (-C a * q)) = -a * pint (F * q) := fun a q => by
    rw [← C_neg, e2]
  have e4 : ∀ (a b : ℝ) (q : ℝ[X]), pint (F * (C a * (-C b * q))) = -(a * b) * pint (F * q) := fun a b q => by
    rw [e2, e3]; ring
  simp only [e4, e2, e3] at h
  push_cast at h
  simp only [N]
  generalize pint (F * legendre (p + 4)) = u at *
  generalize pint (F * legendre (p + 2)) = v at *
  generalize pint (F * legendre p) = t at *
  have h3 : (2 * (p : ℝ) + 3) ≠ 0 := by positivity
  have h5 : (2 * (p : ℝ) + 5) ≠ 0 := by positivity
  have h7 : (2 * (p : ℝ) + 7) ≠ 0 := by positivity
  generalize (p : ℝ) = P at *
  generalize (m : ℝ) = M at *
  have hv := rec_middle (s := s) (d := d) (M := M) h3 h5 h7
  linear_combination h + v * hv

/-! ## The product of two associated Legendre functions -/

/-- `(1-x²)^m P_l^{(m)} P_l'^{(m)}` -/
noncomputable def gF (l lp m : ℕ) : ℝ[X] :=
  wPol ^ m * (derivative^[m] (legendre l) * derivative^[m] (legendre lp))

theorem gF_comm (l lp m : ℕ) : gF l lp m = gF lp l m := by unfold gF; ring

theorem natDegree_dleg (l m : ℕ) : (derivative^[m] (legendre l)).natDegree ≤ l - m :=
  (natDegree_iterate_derivative _ _).trans (Nat.sub_le_sub_right (legendre_degree l).1 m)

theorem natDegree_w_pow (m : ℕ) : (wPol ^ m).natDegree ≤ 2 * m :=
  (natDegree_pow_le_of_le m natDegree_w).trans (by omega)

theorem gF_natDegree {l lp m : ℕ} (h1 : m ≤ l) (h2 : m ≤ lp) : (gF l lp m).natDegree ≤ l + lp := by
  unfold gF
  refine natDegree_mul_le.trans ?_
  have := (natDegree_mul_le (p := derivative^[m] (legendre l)) (q := derivative^[m] (legendre lp)))
  have := natDegree_dleg l m
  have := natDegree_dleg lp m
  have := natDegree_w_pow m
  omega

theorem dleg_coeff {l m : ℕ} (h : m ≤ l) :
    (derivative^[m] (legendre l)).coeff (l - m) = l.factorial / (l - m).factorial * legLead l := by
  rw [coeff_iterate_derivative, Nat.sub_add_cancel h, (legendre_degree l).2, nsmul_eq_mul, Nat.descFactorial_eq_div h,
    Nat.cast_div (Nat.factorial_dvd_factorial (Nat.sub_le _ _)) (by positivity)]

theorem w_pow_coeff (m : ℕ) : (wPol ^ m).coeff (2 * m) = (-1) ^ m := by
  rw [mul_comm, coeff_pow_of_natDegree_le natDegree_w]
  congr 1
  unfold wPol
  simp [coeff_one]

theorem gF_coeff {l lp m : ℕ} (h1 : m ≤ l) (h2 : m ≤ lp) : (gF l lp m).coeff (l + lp) =
    (-1) ^ m * (l.factorial / (l - m).factorial * legLead l * (lp.factorial / (lp - m).factorial * legLead lp)) := by
  unfold gF
  have e : l + lp = 2 * m + ((l - m) + (lp - m)) := by omega
  have hd : (derivative^[m] (legendre l) * derivative^[m] (legendre lp)).natDegree ≤ (l - m) + (lp - m) :=
    natDegree_mul_le.trans (add_le_add (natDegree_dleg l m) (natDegree_dleg lp m))
  rw [e, coeff_mul_add_eq_of_natDegree_le (natDegree_w_pow m) hd, w_pow_coeff,
    coeff_mul_add_eq_of_natDegree_le (natDegree_dleg l m) (natDegree_dleg lp m), dleg_coeff h1, dleg_coeff h2]

theorem gF_big {l lp m p : ℕ} (h1 : m ≤ l) (h2 : m ≤ lp) (hp : l + lp < p) : pint (gF l lp m * legendre p) = 0 :=
  legendre_orth_lower fun k hk => coeff_eq_zero_of_natDegree_lt (by have := gF_natDegree h1 h2; omega)

theorem gF_small {l lp m p : ℕ} (h1 : m ≤ l) (h2 : m ≤ lp) (hp : lp + p < l) : pint (gF l lp m * legendre p) = 0 := by
  have e : gF l lp m * legendre p = (wPol ^ m * (derivative^[m] (legendre lp) * legendre p)) * derivative^[m] (legendre l) := by
    unfold gF; ring
  rw [e, pint_parts_iter m _ _ ⟨_, rfl⟩, legendre_orth_lower, mul_zero]
  intro k hk
  refine coeff_eq_zero_of_natDegree_lt ?_
  have a1 := natDegree_iterate_derivative (wPol ^ m * (derivative^[m] (legendre lp) * legendre p)) m
  have a2 := natDegree_mul_le (p := wPol ^ m) (q := derivative^[m] (legendre lp) * legendre p)
  have a3 := natDegree_mul_le (p := derivative^[m] (legendre lp)) (q := legendre p)
  have a4 := natDegree_dleg lp m
  have a5 := natDegree_w_pow m
  have a6 := (legendre_degree p).1
  omega

theorem deriv_parity {n : ℕ} {q : ℝ[X]} (h : q.comp (-X) = C ((-1) ^ n) * q) :
    (D q).comp (-X) = C ((-1) ^ (n + 1)) * D q := by
  have := congrArg D h
  rw [derivative_comp, derivative_C_mul] at this
  rw [pow_succ, C_mul, mul_right_comm, ← this]
  simp

theorem dleg_parity (l m : ℕ) : (derivative^[m] (legendre l)).comp (-X) = C ((-1) ^ (l + m)) * derivative^[m] (legendre l) := by
  induction m with
  | zero => exact legendre_comp_neg l
  | succ m ih => rw [Function.iterate_succ_apply']; exact deriv_parity ih

theorem gF_odd {l lp m p : ℕ} (hp : Odd (l + lp + p)) : pint (gF l lp m * legendre p) = 0 := by
  have hw : (wPol ^ m).comp (-X) = wPol ^ m := by
    rw [pow_comp]; congr 1; unfold wPol; simp
  have h : (gF l lp m * legendre p).comp (-X) = -(gF l lp m * legendre p) := by
    unfold gF
    rw [mul_comp, mul_comp, mul_comp, hw, dleg_parity, dleg_parity, legendre_comp_neg]
    have e : (C ((-1 : ℝ) ^ (l + m)) * C ((-1) ^ (lp + m)) * C ((-1) ^ p) : ℝ[X]) = -1 := by
      rw [← C_mul, ← C_mul, ← pow_add, ← pow_add, show l + m + (lp + m) + p = l + lp + p + 2 * m by ring, pow_add,
        hp.neg_one_pow, pow_mul]
      simp
    linear_combination (wPol ^ m * derivative^[m] (legendre l) * derivative^[m] (legendre lp) * legendre p) * e
  have h2 := pint_comp_neg (gF l lp m * legendre p)
  rw [h, pint_neg] at h2
  linarith

theorem gF_ode (l lp m : ℕ) :
    D (D (wPol * (legL (gF l lp m) + C ((l : ℝ) * (l + 1) + lp * (lp + 1)) * gF l lp m))) =
      C (4 * (m : ℝ) ^ 2) * D (D (gF l lp m)) - C ((l : ℝ) * (l + 1) + lp * (lp + 1)) * legL (gF l lp m) -
        C (((lp : ℝ) * (lp + 1) - l * (l + 1)) ^ 2) * gF l lp m :=
  product_ode (nab_nab l m) (nab_nab lp m)

/-- coefficients of the expansion of `gF` in Legendre polynomials -/
noncomputable def gC (l lp m p : ℕ) : ℝ := (2 * (p : ℝ) + 1) / 2 * pint (gF l lp m * legendre p)

theorem alphaF_frac (l lp : ℕ) (n : ℝ) : alphaF l lp n =
    (n ^ 4 - (2 * ((l : ℝ) * (l + 1) + lp * (lp + 1)) + 1) * n ^ 2 + ((lp : ℝ) * (lp + 1) - l * (l + 1)) ^ 2) /
      ((2 * n - 1) * (2 * n + 1)) := by
  unfold alphaF; congr 1 <;> ring

/-- The recursion of Xu (3). -/
theorem gC_rec (l lp m p : ℕ) :
    alphaF l lp ((p : ℝ) + 4) * gC l lp m (p + 4) -
      (4 * (m : ℝ) * m + alphaF l lp ((p : ℝ) + 2) + alphaF l lp ((p : ℝ) + 3)) * gC l lp m (p + 2) +
      alphaF l lp ((p : ℝ) + 1) * gC l lp m p = 0 := by
  have h := pint_recursion (gF_ode l lp m) p
  unfold gC
  simp only [alphaF_frac]
  simp only at h
  generalize pint (gF l lp m * legendre (p + 4)) = u at *
  generalize pint (gF l lp m * legendre (p + 2)) = v at *
  generalize pint (gF l lp m * legendre p) = t at *
  generalize (l : ℝ) * (l + 1) + lp * (lp + 1) = s at *
  generalize (lp : ℝ) * (lp + 1) - l * (l + 1) = d at *
  have h1 : 2 * (p : ℝ) + 1 ≠ 0 := by positivity
  have h3 : 2 * (p : ℝ) + 3 ≠ 0 := by positivity
  have h5 : 2 * (p : ℝ) + 5 ≠ 0 := by positivity
  have h7 : 2 * (p : ℝ) + 7 ≠ 0 := by positivity
  have h9 : 2 * (p : ℝ) + 9 ≠ 0 := by positivity
  push_cast
  rw [show 2 * ((p : ℝ) + 4) - 1 = 2 * p + 7 by ring, show 2 * ((p : ℝ) + 4) + 1 = 2 * p + 9 by ring,
    show 2 * ((p : ℝ) + 2) - 1 = 2 * p + 3 by ring, show 2 * ((p : ℝ) + 2) + 1 = 2 * p + 5 by ring,
    show 2 * ((p : ℝ) + 3) - 1 = 2 * p + 5 by ring, show 2 * ((p : ℝ) + 3) + 1 = 2 * p + 7 by ring,
    show 2 * ((p : ℝ) + 1) - 1 = 2 * p + 1 by ring, show 2 * ((p : ℝ) + 1) + 1 = 2 * p + 3 by ring]
  generalize ((p : ℝ) + 4) ^ 4 - (2 * s + 1) * ((p : ℝ) + 4) ^ 2 + d ^ 2 = n4 at *
  generalize ((p : ℝ) + 3) ^ 4 - (2 * s + 1) * ((p : ℝ) + 3) ^ 2 + d ^ 2 = n3 at *
  generalize ((p : ℝ) + 2) ^ 4 - (2 * s + 1) * ((p : ℝ) + 2) ^ 2 + d ^ 2 = n2 at *
  generalize ((p : ℝ) + 1) ^ 4 - (2 * s + 1) * ((p : ℝ) + 1) ^ 2 + d ^ 2 = n1 at *
  generalize 2 * (p : ℝ) + 1 = q1 at *
  generalize 2 * (p : ℝ) + 3 = q3 at *
  generalize 2 * (p : ℝ) + 5 = q5 at *
  generalize 2 * (p : ℝ) + 7 = q7 at *
  generalize 2 * (p : ℝ) + 9 = q9 at *
  have e4 : n4 / (q7 * q9) * (q9 / 2 * u) = q5 / 2 * (n4 / (q5 * q7) * u) := by field_simp
  have e1 : n1 / (q1 * q3) * (q1 / 2 * t) = q5 / 2 * (n1 / (q3 * q5) * t) := by field_simp
  rw [e4, e1]
  linear_combination q5 / 2 * h

/-- `√(4π)` times the factor of `gF` in `Y_l^m Y_l'^{-m}` -/
noncomputable def gK (l lp m : ℕ) : ℝ :=
  (-1) ^ m * Real.sqrt ((2 * l + 1) / (4 * Real.pi) * ((l - m).factorial / (l + m).factorial)) *
    Real.sqrt ((2 * lp + 1) / (4 * Real.pi) * ((lp + m).factorial / (lp - m).factorial)) *
    ((lp - m).factorial / (lp + m).factorial)

theorem gTop_zero_eq {l lp m : ℕ} (h1 : m ≤ l) (h2 : m ≤ lp) :
    gTop l lp m 0 = Real.sqrt (4 * Real.pi) * gK l lp m * gC l lp m (l + lp) := by
  unfold gC
  rw [pint_top (gF_natDegree h1 h2), gF_coeff h1 h2]
  have hx : (2 * ((l + lp : ℕ) : ℝ) + 1) ≠ 0 := by positivity
  rw [show ∀ a b : ℝ, (2 * ((l + lp : ℕ) : ℝ) + 1) / 2 * (a / b * (2 / (2 * ((l + lp : ℕ) : ℝ) + 1))) = a / b from
    fun a b => by field_simp]
  simp only [gTop]
  unfold gauntLnMax gK legLead
  have a1 : lgam (2 * (l : ℝ) + 1) = Real.log (2 * l).factorial := by rw [← lgam_nat]; push_cast; rfl
  have a2 : lgam (2 * (lp : ℝ) + 1) = Real.log (2 * lp).factorial := by rw [← lgam_nat]; push_cast; rfl
  have a3 : lgam (((l : ℝ) + lp) + 1) = Real.log (l + lp).factorial := by rw [← lgam_nat]; push_cast; rfl
  have a4 : lgam (2 * ((l : ℝ) + lp) + 1) = Real.log (2 * (l + lp)).factorial := by rw [← lgam_nat]; push_cast; rfl
  have a5 : lgam ((l : ℝ) - ((m : ℤ) : ℝ) + 1) = Real.log (l - m).factorial := by
    rw [← lgam_nat]; push_cast [Nat.cast_sub h1]; rfl
  have a6 : lgam ((lp : ℝ) - ((m : ℤ) : ℝ) + 1) = Real.log (lp - m).factorial := by
    rw [← lgam_nat]; push_cast [Nat.cast_sub h2]; rfl
  have a7 : lgam ((l : ℝ) + ((m : ℤ) : ℝ) + 1) = Real.log (l + m).factorial := by rw [← lgam_nat]; push_cast; rfl
  have a8 : lgam ((lp : ℝ) + ((m : ℤ) : ℝ) + 1) = Real.log (lp + m).factorial := by rw [← lgam_nat]; push_cast; rfl
  rw [a1, a2, a3, a4, a5, a6, a7, a8, lgam_nat, lgam_nat]
  have hf : ∀ n : ℕ, (0 : ℝ) < n.factorial := fun n => by positivity
  have b1 := hf (2 * l); have b2 := hf (2 * lp); have b3 := hf (l + lp); have b4 := hf (2 * (l + lp))
  have b5 := hf (l - m); have b6 := hf (lp - m); have b7 := hf (l + m); have b8 := hf (lp + m)
  have b9 := hf l; have b10 := hf lp
  clear hf a1 a2 a3 a4 a5 a6 a7 a8
  have c1 : (0 : ℝ) < 2 * l + 1 := by positivity
  have c2 : (0 : ℝ) < 2 * lp + 1 := by positivity
  have c3 : (0 : ℝ) < 4 * Real.pi := by positivity
  generalize ((2 * l).factorial : ℝ) = A1 at *
  generalize ((2 * lp).factorial : ℝ) = A2 at *
  generalize ((l + lp).factorial : ℝ) = A3 at *
  generalize ((2 * (l + lp)).factorial : ℝ) = A4 at *
  generalize ((l - m).factorial : ℝ) = A5 at *
  generalize ((lp - m).factorial : ℝ) = A6 at *
  generalize ((l + m).factorial : ℝ) = A7 at *
  generalize ((lp + m).factorial : ℝ) = A8 at *
  generalize (l.factorial : ℝ) = A9 at *
  generalize (lp.factorial : ℝ) = A10 at *
  generalize 2 * (l : ℝ) + 1 = C1 at *
  generalize 2 * (lp : ℝ) + 1 = C2 at *
  generalize 4 * Real.pi = C3 at *
  have hh : ∀ x y z w : ℝ, 0 < x → 0 < y → 0 < z → 0 < w →
      Real.exp (0.5 * (Real.log x + Real.log y - Real.log z - Real.log w)) = Real.sqrt x * Real.sqrt y / (Real.sqrt z * Real.sqrt w) := by
    intro x y z w hx hy hz hw
    rw [show (0.5 : ℝ) * (Real.log x + Real.log y - Real.log z - Real.log w) =
      Real.log (Real.sqrt x) + Real.log (Real.sqrt y) - Real.log (Real.sqrt z) - Real.log (Real.sqrt w) by
        rw [Real.log_sqrt hx.le, Real.log_sqrt hy.le, Real.log_sqrt hz.le, Real.log_sqrt hw.le]; ring]
    rw [Real.exp_sub, Real.exp_sub, Real.exp_add, Real.exp_log (Real.sqrt_pos.mpr hx), Real.exp_log (Real.sqrt_pos.mpr hy),
      Real.exp_log (Real.sqrt_pos.mpr hz), Real.exp_log (Real.sqrt_pos.mpr hw), div_div]
  have h3 : ∀ x y z : ℝ, 0 < x → 0 < y → 0 < z →
      Real.exp (0.5 * (Real.log x + Real.log y - Real.log z)) = Real.sqrt x * Real.sqrt y / Real.sqrt z := by
    intro x y z hx hy hz
    have := hh x y z 1 hx hy hz one_pos
    simpa using this
  rw [Real.exp_add, Real.exp_add, hh _ _ _ _ b5 b8 b7 b6, h3 _ _ _ c1 c2 c3]
  simp only [Real.exp_sub, Real.exp_add, two_mul (Real.log A3)]
  rw [Real.exp_log b1, Real.exp_log b2, Real.exp_log b3, Real.exp_log b4, Real.exp_log b5, Real.exp_log b8, Real.exp_log b9,
    Real.exp_log b10]
  rw [Real.sqrt_mul (by positivity), Real.sqrt_mul (by positivity), Real.sqrt_div c1.le, Real.sqrt_div c2.le, Real.sqrt_div b5.le,
    Real.sqrt_div b8.le]
  have s1 := Real.sqrt_pos.mpr c3
  have s2 := Real.sqrt_pos.mpr b7
  have s3 := Real.sqrt_pos.mpr b6
  generalize Real.sqrt C3 = S3 at *
  generalize Real.sqrt A7 = S7 at *
  generalize Real.sqrt A6 = S6 at *
  rw [pow_add]
  have hs : ((-1 : ℝ) ^ m) * (-1) ^ m = 1 := by rw [← mul_pow]; simp
  have hs0 : ((-1 : ℝ) ^ m) ^ 2 = 1 := by rw [sq, hs]
  generalize (-1 : ℝ) ^ m = sg at *
  field_simp
  rw [hs0]

theorem gTop_eq {l lp m : ℕ} (h1 : m ≤ l) (h2 : m ≤ lp) (j : ℕ) : j ≤ min l lp →
    gTop l lp m j = Real.sqrt (4 * Real.pi) * gK l lp m * gC l lp m (l + lp - 2 * j) := by
  induction j using Nat.twoStepInduction with
  | zero => intro _; exact gTop_zero_eq h1 h2
  | one =>
    intro hj
    have h0 := gTop_zero_eq h1 h2
    obtain ⟨a, rfl⟩ : ∃ a, l = a + 1 := ⟨l - 1, by omega⟩
    obtain ⟨b, rfl⟩ : ∃ b, lp = b + 1 := ⟨lp - 1, by omega⟩
    have hr := gC_rec (a + 1) (b + 1) m (a + b)
    have hz : gC (a + 1) (b + 1) m (a + b + 4) = 0 := by
      unfold gC; rw [gF_big h1 h2 (by omega), mul_zero]
    rw [hz, mul_zero] at hr
    rw [show a + 1 + (b + 1) - 2 * 1 = a + b by omega]
    rw [show a + 1 + (b + 1) = a + b + 2 by ring] at h0
    simp only [gTop] at h0 ⊢
    rw [h0]
    have e3 : alphaF (a + 1) (b + 1) (((a + b : ℕ) : ℝ) + 3) = 0 := by
      unfold alphaF
      push_cast
      rw [show ((a : ℝ) + b + 3) * ((a : ℝ) + b + 3) - ((a : ℝ) + 1 + (b + 1) + 1) ^ 2 = 0 by ring, zero_mul, zero_div]
    have n0 : (2 * (a : ℝ) + 1) ≠ 0 := by positivity
    have n1 : (2 * (b : ℝ) + 1) ≠ 0 := by positivity
    have n2 : ((a : ℝ) + b + 2) ≠ 0 := by positivity
    have n3 : (2 * ((a : ℝ) + b) + 3) ≠ 0 := by positivity
    have n4 : (2 * ((a : ℝ) + b) + 1) ≠ 0 := by positivity
    have n5 : (2 * ((a : ℝ) + b) + 5) ≠ 0 := by positivity
    have e2 : alphaF (a + 1) (b + 1) (((a + b : ℕ) : ℝ) + 2) = -(4 * (a + 1) * (b + 1)) / (2 * (a + b) + 3) := by
      unfold alphaF
      push_cast
      rw [show 4 * ((a : ℝ) + b + 2) * (a + b + 2) - 1 = (2 * (a + b) + 3) * (2 * (a + b) + 5) by ring]
      rw [div_eq_div_iff (mul_ne_zero n3 n5) n3]
      ring
    have e1 : alphaF (a + 1) (b + 1) (((a + b : ℕ) : ℝ) + 1) =
        -(4 * (a + b + 2) * (2 * a + 1) * (2 * b + 1)) / ((2 * (a + b) + 1) * (2 * (a + b) + 3)) := by
      unfold alphaF
      push_cast
      rw [show 4 * ((a : ℝ) + b + 1) * (a + b + 1) - 1 = (2 * (a + b) + 1) * (2 * (a + b) + 3) by ring]
      congr 1
      ring
    rw [e1, e2, e3, zero_sub, add_zero] at hr
    generalize gC (a + 1) (b + 1) m (a + b) = u at *
    generalize gC (a + 1) (b + 1) m (a + b + 2) = v at *
    have hu : u = v * ((2 * ((a : ℝ) + b) + 1) * ((a + 1) * (b + 1) - m ^ 2 * (2 * (a + b) + 3)) /
        ((2 * a + 1) * (2 * b + 1) * (a + b + 2))) := by
      generalize hq0 : 2 * (a : ℝ) + 1 = q0 at *
      generalize hq1 : 2 * (b : ℝ) + 1 = q1 at *
      generalize hq2 : (a : ℝ) + b + 2 = q2 at *
      generalize hq3 : 2 * ((a : ℝ) + b) + 3 = q3 at *
      generalize hq4 : 2 * ((a : ℝ) + b) + 1 = q4 at *
      field_simp at hr ⊢
      linear_combination hr / (-4)
    rw [hu]
    push_cast
    rw [show 2 * ((a : ℝ) + 1 + (b + 1)) - 3 = 2 * (a + b) + 1 by ring, show 2 * ((a : ℝ) + 1 + (b + 1)) - 1 = 2 * (a + b) + 3 by ring,
      show 2 * ((a : ℝ) + 1) - 1 = 2 * a + 1 by ring, show 2 * ((b : ℝ) + 1) - 1 = 2 * b + 1 by ring,
      show (a : ℝ) + 1 + (b + 1) = a + b + 2 by ring]
    ring
  | more j ih1 ih2 =>
    intro hj
    obtain ⟨q, hq⟩ : ∃ q, l + lp = q + 2 * j + 4 := ⟨l + lp - (2 * j + 4), by omega⟩
    have hr := gC_rec l lp m q
    have hq' : (l : ℝ) + lp = q + 2 * j + 4 := by exact_mod_cast hq
    have hne : alphaF l lp ((q : ℝ) + 1) ≠ 0 := by
      have hl := lppMin_le l lp
      have := alphaF_ne (l := l) (lp := lp) (p := q + 1) (by omega) (by omega)
      push_cast at this
      exact this
    simp only [gTop]
    rw [ih1 (by omega), ih2 (by omega), show l + lp - 2 * j = q + 4 by omega, show l + lp - 2 * (j + 1) = q + 2 by omega,
      show l + lp - 2 * (j + 2) = q by omega, hq',
      show (q : ℝ) + 2 * j + 4 - (2 * j + 2) = q + 2 by ring, show (q : ℝ) + 2 * j + 4 - (2 * j + 1) = q + 3 by ring,
      show (q : ℝ) + 2 * j + 4 - 2 * j = q + 4 by ring, show (q : ℝ) + 2 * j + 4 - (2 * j + 3) = q + 1 by ring,
      div_eq_iff hne]
    push_cast
    linear_combination (-Real.sqrt (4 * Real.pi) * gK l lp m) * hr

/-! ## Spherical harmonics -/

theorem ylm_prod (l lp m : ℕ) {x : ℝ} (hx : x ∈ Set.Icc (-1 : ℝ) 1) :
    ylm l m x * ylm lp (-m) x = gK l lp m * (gF l lp m).eval x := by
  have hs : Real.sqrt (1 - x ^ 2) ^ m * Real.sqrt (1 - x ^ 2) ^ m = (1 - x ^ 2) ^ m := by
    rw [← mul_pow, Real.mul_self_sqrt (by nlinarith [hx.1, hx.2])]
  have hsg : ((-1 : ℝ) ^ m) * (-1) ^ m = 1 := by rw [← mul_pow]; simp
  have h1 : assocLegendre l m x = assocPos l m x := by
    unfold assocLegendre; rw [if_pos (by omega), Int.natAbs_natCast]
  have h2 : assocLegendre lp (-m) x = (-1) ^ m * ((lp - m).factorial / (lp + m).factorial) * assocPos lp m x := by
    unfold assocLegendre
    by_cases hm : m = 0
    · subst hm
      simp
      rw [div_self (by positivity), one_mul]
    · rw [if_neg (by omega), Int.natAbs_neg, Int.natAbs_natCast]
  unfold ylm gK gF
  rw [h1, h2]
  unfold assocPos
  rw [show ((l : ℤ) - m).toNat = l - m by omega, show ((l : ℤ) + m).toNat = l + m by omega,
    show ((lp : ℤ) - -m).toNat = lp + m by omega, show ((lp : ℤ) + -m).toNat = lp - m by omega]
  have hw : wPol.eval x = 1 - x ^ 2 := by simp [wPol]
  rw [eval_mul, eval_mul, eval_pow, hw, ← hs]
  generalize Real.sqrt ((2 * l + 1) / (4 * Real.pi) * ((l - m).factorial / (l + m).factorial)) = r1
  generalize Real.sqrt ((2 * lp + 1) / (4 * Real.pi) * ((lp + m).factorial / (lp - m).factorial)) = r2
  linear_combination (r1 * r2 * Real.sqrt (1 - x ^ 2) ^ m * Real.sqrt (1 - x ^ 2) ^ m * (-1) ^ m *
    eval x (derivative^[m] (legendre l)) * eval x (derivative^[m] (legendre lp)) * ((lp - m).factorial / (lp + m).factorial)) * hsg

theorem ylm_zero (p : ℕ) (x : ℝ) : ylm p 0 x = Real.sqrt ((2 * p + 1) / (4 * Real.pi)) * (legendre p).eval x := by
  unfold ylm assocLegendre assocPos
  rw [if_pos le_rfl]
  simp
  left
  rw [div_self (by positivity), mul_one]

theorem gauntIntegral_eq (l lp m p : ℕ) :
    gauntIntegral l lp m p = 2 * Real.pi * (Real.sqrt ((2 * p + 1) / (4 * Real.pi)) * gK l lp m * pint (gF l lp m * legendre p)) := by
  unfold gauntIntegral
  congr 1
  unfold pint
  rw [← intervalIntegral.integral_const_mul]
  refine intervalIntegral.integral_congr fun x hx => ?_
  rw [Set.uIcc_of_le (by norm_num)] at hx
  rw [ylm_prod l lp m hx, ylm_zero, eval_mul]
  ring

theorem gauntIntegral_swap (l lp : ℕ) (m : ℤ) (p : ℕ) : gauntIntegral l lp (-m) p = gauntIntegral lp l m p := by
  unfold gauntIntegral
  simp only [neg_neg, mul_comm (ylm l (-m) _)]

/-- the normalisation of Legendre polynomials and of `gaunt` -/
theorem gauntIntegral_gC (l lp m p : ℕ) :
    gauntIntegral l lp m p = Real.sqrt (4 * Real.pi) * gK l lp m * gC l lp m p / Real.sqrt (2 * p + 1) := by
  rw [gauntIntegral_eq]
  unfold gC
  have hp := Real.pi_pos
  have c3 : (0 : ℝ) < 4 * Real.pi := by positivity
  have c1 : (0 : ℝ) < 2 * p + 1 := by positivity
  have s1 := Real.sqrt_pos.mpr c3
  have s2 := Real.sqrt_pos.mpr c1
  rw [Real.sqrt_div c1.le]
  have q1 := Real.sq_sqrt c3.le
  have q2 := Real.sq_sqrt c1.le
  generalize Real.sqrt (4 * Real.pi) = S at *
  generalize Real.sqrt (2 * p + 1) = T at *
  rw [← q2, show 2 * Real.pi = S ^ 2 / 2 by rw [q1]; ring]
  field_simp

theorem gF_none {l lp m : ℕ} (h : min l lp < m) : gF l lp m = 0 := by
  have : ∀ n, n < m → derivative^[m] (legendre n) = 0 := fun n hn =>
    iterate_derivative_eq_zero (lt_of_le_of_lt (legendre_degree n).1 hn)
  unfold gF
  rcases min_lt_iff.mp h with h | h
  · rw [this l h, zero_mul, mul_zero]
  · rw [this lp h, mul_zero, mul_zero]

theorem gnt_integral_nat (l lp m : ℕ) {i : ℕ} (hi : i ≤ min l lp) : gnt l lp m i = gauntIntegral l lp m (lppMin l lp + 2 * i) := by
  by_cases hm : m ≤ min l lp
  · rw [gauntIntegral_gC]
    unfold gnt
    have := lppMin_le l lp
    rw [if_neg (by simp; omega), gTop_eq (by omega) (by omega) _ (by omega),
      show l + lp - 2 * (min l lp - i) = lppMin l lp + 2 * i by omega]
    push_cast
    rfl
  · rw [gnt_big (by simp; omega), gauntIntegral_eq, gF_none (by omega), zero_mul, pint_zero, mul_zero, mul_zero]

theorem gnt_integral (l lp : ℕ) (m : ℤ) {i : ℕ} (hi : i ≤ min l lp) :
    gnt l lp m i = gauntIntegral l lp m (lppMin l lp + 2 * i) := by
  obtain ⟨n, rfl | rfl⟩ := Int.eq_nat_or_neg m
  · exact gnt_integral_nat l lp n hi
  · rw [gauntIntegral_swap, gnt_neg, gnt_symm, lppMin_comm]
    exact gnt_integral_nat lp l n (by rwa [min_comm])

theorem gauntIntegral_other_nat {l lp p : ℕ} (m : ℕ) (h : ∀ i ≤ min l lp, p ≠ lppMin l lp + 2 * i) : gauntIntegral l lp m p = 0 := by
  rw [gauntIntegral_eq]
  have hz : pint (gF l lp m * legendre p) = 0 := by
    by_cases hm : m ≤ min l lp
    · have h1 : m ≤ l := by omega
      have h2 : m ≤ lp := by omega
      by_cases hb : l + lp < p
      · exact gF_big h1 h2 hb
      by_cases hs : lp + p < l
      · exact gF_small h1 h2 hs
      by_cases hs' : l + p < lp
      · rw [gF_comm]; exact gF_small h2 h1 hs'
      refine gF_odd ?_
      by_contra ho
      rw [Nat.not_odd_iff_even] at ho
      obtain ⟨r, hr⟩ := ho
      refine h ((p - lppMin l lp) / 2) ?_ ?_ <;> unfold lppMin <;> omega
    · rw [gF_none (by omega), zero_mul, pint_zero]
  rw [hz, mul_zero, mul_zero]

theorem gauntIntegral_other {l lp p : ℕ} (m : ℤ) (h : ∀ i ≤ min l lp, p ≠ lppMin l lp + 2 * i) : gauntIntegral l lp m p = 0 := by
  obtain ⟨n, rfl | rfl⟩ := Int.eq_nat_or_neg m
  · exact gauntIntegral_other_nat n h
  · rw [gauntIntegral_swap]
    exact gauntIntegral_other_nat n (by rwa [min_comm, lppMin_comm])

theorem ylm_expansion_nat (l lp m : ℕ) {x : ℝ} (hx : x ∈ Set.Icc (-1 : ℝ) 1) :
    ylm l m x * ylm lp (-m) x = ∑ p ∈ Finset.range (l + lp + 1), gauntIntegral l lp m p * ylm p 0 x := by
  rw [ylm_prod l lp m hx]
  have hF : gF l lp m = ∑ k ∈ Finset.range (l + lp + 1), C ((2 * (k : ℝ) + 1) / 2 * pint (gF l lp m * legendre k)) * legendre k := by
    refine legendre_expansion fun k hk => ?_
    by_cases hm : m ≤ min l lp
    · exact coeff_eq_zero_of_natDegree_lt (by have := gF_natDegree (l := l) (lp := lp) (m := m) (by omega) (by omega); omega)
    · rw [gF_none (by omega), coeff_zero]
  have hF' := congrArg (eval x) hF
  rw [hF', eval_finsetSum, Finset.mul_sum]
  refine Finset.sum_congr rfl fun k _ => ?_
  rw [gauntIntegral_eq, ylm_zero, eval_mul, eval_C]
  have q : Real.sqrt ((2 * k + 1) / (4 * Real.pi)) * Real.sqrt ((2 * k + 1) / (4 * Real.pi)) = (2 * k + 1) / (4 * Real.pi) :=
    Real.mul_self_sqrt (by positivity)
  have q' : 2 * Real.pi * ((2 * (k : ℝ) + 1) / (4 * Real.pi)) = (2 * k + 1) / 2 := by
    have := Real.pi_ne_zero
    field_simp
    norm_num
  rw [← q']
  linear_combination (-(2 * Real.pi) * gK l lp m * pint (gF l lp m * legendre k) * eval x (legendre k)) * q

theorem ylm_expansion (l lp : ℕ) (m : ℤ) {x : ℝ} (hx : x ∈ Set.Icc (-1 : ℝ) 1) :
    ylm l m x * ylm lp (-m) x = ∑ i ∈ Finset.range (min l lp + 1), gnt l lp m i * ylm (lppMin l lp + 2 * i) 0 x := by
  have h : ylm l m x * ylm lp (-m) x = ∑ p ∈ Finset.range (l + lp + 1), gauntIntegral l lp m p * ylm p 0 x := by
    obtain ⟨n, rfl | rfl⟩ := Int.eq_nat_or_neg m
    · exact ylm_expansion_nat l lp n hx
    · rw [neg_neg, mul_comm, ylm_expansion_nat lp l n hx, add_comm lp l]
      exact Finset.sum_congr rfl fun p _ => by rw [gauntIntegral_swap]
  rw [h]
  have hle := lppMin_le l lp
  symm
  calc _ = ∑ i ∈ Finset.range (min l lp + 1), gauntIntegral l lp m (lppMin l lp + 2 * i) * ylm (lppMin l lp + 2 * i) 0 x :=
        Finset.sum_congr rfl fun i hi => by rw [gnt_integral l lp m (by have := Finset.mem_range.mp hi; omega)]
    _ = ∑ p ∈ (Finset.range (min l lp + 1)).image (fun i => lppMin l lp + 2 * i), gauntIntegral l lp m p * ylm p 0 x := by
        rw [Finset.sum_image]
        intro a _ b _ hab
        simp only at hab
        omega
    _ = _ := by
        refine Finset.sum_subset ?_ ?_
        · intro p hp
          obtain ⟨i, hi, rfl⟩ := Finset.mem_image.mp hp
          have := Finset.mem_range.mp hi
          exact Finset.mem_range.mpr (by omega)
        · intro p _ hp
          rw [gauntIntegral_other, zero_mul]
          intro i hi he
          exact hp (Finset.mem_image.mpr ⟨i, Finset.mem_range.mpr (by omega), he.symm⟩)

/-! ## The coefficient of the lowest degree -/

theorem gF_low {lp m d : ℕ} (h2 : m ≤ lp) : pint (gF (lp + d) lp m * legendre d) =
    ((lp + d + m).factorial / (lp + d).factorial) * (lp.factorial / (lp - m).factorial * legLead lp) * legLead d /
      legLead (lp + d) * (2 / (2 * ((lp + d : ℕ) : ℝ) + 1)) := by
  set l := lp + d with hl
  have e : gF l lp m * legendre d = (wPol ^ m * (derivative^[m] (legendre lp) * legendre d)) * derivative^[m] (legendre l) := by
    unfold gF; ring
  rw [e, pint_parts_iter m _ _ ⟨_, rfl⟩]
  have a3 : (derivative^[m] (legendre lp) * legendre d).natDegree ≤ (lp - m) + d :=
    natDegree_mul_le.trans (add_le_add (natDegree_dleg lp m) (legendre_degree d).1)
  have a2 : (wPol ^ m * (derivative^[m] (legendre lp) * legendre d)).natDegree ≤ 2 * m + ((lp - m) + d) :=
    natDegree_mul_le.trans (add_le_add (natDegree_w_pow m) a3)
  have a1 : (derivative^[m] (wPol ^ m * (derivative^[m] (legendre lp) * legendre d))).natDegree ≤ l :=
    (natDegree_iterate_derivative _ _).trans (by omega)
  rw [pint_top a1]
  have hc : (derivative^[m] (wPol ^ m * (derivative^[m] (legendre lp) * legendre d))).coeff l =
      ((l + m).factorial / l.factorial) * ((-1) ^ m * (lp.factorial / (lp - m).factorial * legLead lp * legLead d)) := by
    rw [coeff_iterate_derivative, show l + m = 2 * m + ((lp - m) + d) by omega,
      coeff_mul_add_eq_of_natDegree_le (natDegree_w_pow m) a3, w_pow_coeff,
      coeff_mul_add_eq_of_natDegree_le (natDegree_dleg lp m) (legendre_degree d).1, dleg_coeff h2, (legendre_degree d).2,
      nsmul_eq_mul, Nat.descFactorial_eq_div (by omega),
      Nat.cast_div (Nat.factorial_dvd_factorial (Nat.sub_le _ _)) (by positivity),
      show 2 * m + ((lp - m) + d) - m = l by omega]
  rw [hc]
  have hs : ((-1 : ℝ) ^ m) * (-1) ^ m = 1 := by rw [← mul_pow]; simp
  have := legLead_pos l
  linear_combination ((l + m).factorial / l.factorial * (lp.factorial / (lp - m).factorial * legLead lp * legLead d) / legLead l *
    (2 / (2 * (l : ℝ) + 1))) * hs

/-! ## Rodrigues' formula -/

theorem rodrigues_lead (n : ℕ) : (derivative^[n] (wPol ^ n)).coeff n = (-1) ^ n * (2 ^ n * n.factorial * legLead n) := by
  rw [coeff_iterate_derivative, ← two_mul, w_pow_coeff, nsmul_eq_mul, Nat.descFactorial_eq_div (by omega),
    Nat.cast_div (Nat.factorial_dvd_factorial (Nat.sub_le _ _)) (by positivity), two_mul n, Nat.add_sub_cancel, ← two_mul n]
  unfold legLead
  field_simp

/-- Rodrigues' formula: `2^n n! P_n = (-1)^n dⁿ/dxⁿ (1-x²)^n`. -/
theorem legendre_rodrigues (n : ℕ) : C (2 ^ n * (n.factorial : ℝ)) * legendre n = C ((-1) ^ n) * derivative^[n] (wPol ^ n) := by
  have hdeg : (derivative^[n] (wPol ^ n)).natDegree ≤ n :=
    (natDegree_iterate_derivative _ _).trans (by have := natDegree_w_pow n; omega)
  have hexp := legendre_expansion (N := n + 1) (g := derivative^[n] (wPol ^ n))
    fun k hk => coeff_eq_zero_of_natDegree_lt (by omega)
  rw [Finset.sum_range_succ, Finset.sum_eq_zero, zero_add] at hexp
  · have ht := pint_top hdeg
    rw [rodrigues_lead] at ht
    rw [hexp, ht, ← mul_assoc, ← C_mul]
    congr 2
    have h1 := legLead_pos n
    have h2 : (2 * (n : ℝ) + 1) ≠ 0 := by positivity
    have hs : ((-1 : ℝ) ^ n) * (-1) ^ n = 1 := by rw [← mul_pow]; simp
    field_simp
    rw [sq, hs]
  · intro k hk
    have hk' := Finset.mem_range.mp hk
    have : pint (derivative^[n] (wPol ^ n) * legendre k) = 0 := by
      have h := pint_parts_iter n (wPol ^ n) (legendre k) dvd_rfl
      rw [iterate_derivative_eq_zero (lt_of_le_of_lt (legendre_degree k).1 hk'), mul_zero, pint_zero] at h
      exact (mul_eq_zero.mp h.symm).resolve_left (pow_ne_zero _ (by norm_num))
    rw [this, mul_zero, C_0, zero_mul]

end CasSph
