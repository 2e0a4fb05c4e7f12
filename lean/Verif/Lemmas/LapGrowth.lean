import Verif.Lemmas.FiniteContr
import Verif.Lemmas.FloatMie
import Verif.Props.TransIntegral

/-! # Growth of the translation coefficients with decreasing distance -/

namespace CasSph

open Polynomial Spec Nat

local notation "D" => Polynomial.derivative

/-- A polynomial of degree at most `d` with non-negative coefficients in powers of `t - 1`. -/
structure UpPol (d : ℕ) (p : ℝ[X]) : Prop where
  coeff : ∀ i, 0 ≤ (p.comp (X + 1)).coeff i
  deg : p.natDegree ≤ d

namespace UpPol

variable {d e : ℕ} {p q : ℝ[X]}

theorem mono (h : UpPol d p) (hde : d ≤ e) : UpPol e p := ⟨h.coeff, h.deg.trans hde⟩

theorem zero : UpPol d 0 := ⟨by simp, by simp⟩

theorem const {a : ℝ} (ha : 0 ≤ a) : UpPol 0 (C a) := by
  refine ⟨fun i => ?_, by simp⟩
  rw [C_comp, coeff_C]
  split <;> linarith

theorem var : UpPol 1 X := by
  refine ⟨fun i => ?_, natDegree_X_le⟩
  rw [X_comp, coeff_add, coeff_X, coeff_one]
  split <;> split <;> norm_num

theorem add (h : UpPol d p) (h' : UpPol d q) : UpPol d (p + q) := by
  refine ⟨fun i => ?_, (natDegree_add_le _ _).trans (max_le h.deg h'.deg)⟩
  rw [add_comp, coeff_add]
  exact add_nonneg (h.coeff i) (h'.coeff i)

theorem mul (h : UpPol d p) (h' : UpPol e q) : UpPol (d + e) (p * q) := by
  refine ⟨fun i => ?_, natDegree_mul_le.trans (Nat.add_le_add h.deg h'.deg)⟩
  rw [mul_comp, coeff_mul]
  exact Finset.sum_nonneg fun x _ => mul_nonneg (h.coeff _) (h'.coeff _)

theorem pow (h : UpPol d p) : ∀ n : ℕ, UpPol (d * n) (p ^ n)
  | 0 => by simpa using const (zero_le_one (α := ℝ))
  | n + 1 => by
    have := (h.pow n).mul h
    rwa [← _root_.pow_succ, ← Nat.mul_succ] at this

theorem comp_deriv (p : ℝ[X]) : (D p).comp (X + 1) = D (p.comp (X + 1)) := by
  rw [derivative_comp]
  simp

theorem deriv (h : UpPol d p) : UpPol (d - 1) (D p) := by
  refine ⟨fun i => ?_, (natDegree_derivative_le p).trans (Nat.sub_le_sub_right h.deg 1)⟩
  rw [comp_deriv, coeff_derivative]
  exact mul_nonneg (h.coeff _) (by positivity)

theorem of_deriv (h : UpPol d (D p)) (h1 : 0 ≤ p.eval 1) (hd : p.natDegree ≤ e) : UpPol e p := by
  refine ⟨fun i => ?_, hd⟩
  cases i with
  | zero => rw [coeff_zero_eq_eval_zero, eval_comp]; simpa using h1
  | succ i =>
    have := h.coeff i
    rw [comp_deriv, coeff_derivative] at this
    exact nonneg_of_mul_nonneg_left this (by positivity)

theorem eval_one (h : UpPol d p) : 0 ≤ p.eval 1 := by
  have := h.coeff 0
  rw [coeff_zero_eq_eval_zero, eval_comp] at this
  simpa using this

theorem eval_nonneg (h : UpPol d p) {t : ℝ} (ht : 1 ≤ t) : 0 ≤ p.eval t := by
  have e : p.eval t = (p.comp (X + 1)).eval (t - 1) := by rw [eval_comp]; simp
  rw [e, eval_eq_sum]
  exact Finset.sum_nonneg fun i _ => mul_nonneg (h.coeff i) (pow_nonneg (by linarith) _)

theorem lap_const {x : ℝ} (hx : 0 < x) (a : ℝ) : x * lap x (C a) = Real.exp (-x) * a := by
  have := lap_derivative hx (C a)
  rw [derivative_C, lap_zero, eval_C] at this
  linarith

/-- `x^(d+1) e^x ∫ e^(-xt) p(t) dt` does not decrease. -/
theorem lap_growth (h : UpPol d p) {x y : ℝ} (hx : 0 < x) (hxy : x ≤ y) :
    x ^ (d + 1) * Real.exp x * lap x p ≤ y ^ (d + 1) * Real.exp y * lap y p := by
  have hy := hx.trans_le hxy
  have ex : ∀ z : ℝ, Real.exp z * Real.exp (-z) = 1 := fun z => by rw [← Real.exp_add]; simp
  induction d generalizing p with
  | zero =>
    obtain ⟨a, rfl⟩ : ∃ a, p = C a := ⟨_, eq_C_of_natDegree_le_zero h.deg⟩
    have e : ∀ z : ℝ, 0 < z → z ^ (0 + 1) * Real.exp z * lap z (C a) = a := fun z hz => by
      have := lap_const hz a
      have h2 := ex z
      rw [zero_add, pow_one]
      linear_combination Real.exp z * this + a * h2
    rw [e x hx, e y hy]
  | succ d ih =>
    have e : ∀ z : ℝ, 0 < z → z ^ (d + 1 + 1) * Real.exp z * lap z p = z ^ (d + 1) * p.eval 1 + z ^ (d + 1) * Real.exp z * lap z (D p) := fun z hz => by
      have := lap_derivative hz p
      have h2 := ex z
      rw [this, _root_.pow_succ]
      linear_combination (z ^ (d + 1) * p.eval 1) * h2
    rw [e x hx, e y hy]
    have := h.eval_one
    have h2 := ih h.deriv
    gcongr

theorem lap_near (h : UpPol d p) (hp : ∀ t, 1 < t → 0 < p.eval t) {w x y : ℝ} (hn : Near w x y) (hw : w ≤ 1 / 20) :
    Near ((d + 1 + 21 / 20 * y) * w) (lap x p) (lap y p) := by
  have w0 := hn.w0
  have hx := hn.a0
  have hy := hn.b0
  have px := lap_pos hx hp
  have py := lap_pos hy hp
  have key : ∀ x y : ℝ, 0 < x → x ≤ y → Real.log (lap x p) - Real.log (lap y p) ≤ (d + 1) * (Real.log y - Real.log x) + (y - x) := by
    intro x y hx hxy
    have hy := hx.trans_le hxy
    have px := lap_pos hx hp
    have py := lap_pos hy hp
    have := Real.log_le_log (by positivity) (h.lap_growth hx hxy)
    rw [Real.log_mul (by positivity) px.ne', Real.log_mul (by positivity) (Real.exp_pos _).ne', Real.log_pow, Real.log_exp,
      Real.log_mul (by positivity) py.ne', Real.log_mul (by positivity) (Real.exp_pos _).ne', Real.log_pow, Real.log_exp] at this
    push_cast at this
    linarith
  refine ⟨px, py, ?_⟩
  have ha := hn.abs_sub hw
  obtain ⟨a1, a2⟩ := abs_le.mp ha
  obtain ⟨l1, l2⟩ := abs_le.mp hn.le
  have d0 : (0 : ℝ) ≤ d + 1 := by positivity
  rcases le_total x y with hxy | hxy
  · have k1 := key x y hx hxy
    have k2 := Real.log_le_log py (lap_anti hx hxy fun t ht => (hp t ht).le)
    rw [abs_of_nonneg (by linarith)]
    have := mul_le_mul_of_nonneg_left (by linarith : Real.log y - Real.log x ≤ w) d0
    linarith
  · have k1 := key y x hy hxy
    have k2 := Real.log_le_log px (lap_anti hy hxy fun t ht => (hp t ht).le)
    rw [abs_of_nonpos (by linarith)]
    have := mul_le_mul_of_nonneg_left l2 d0
    linarith

end UpPol

theorem up_legendre (n : ℕ) : UpPol n (legendre n) := by
  induction n using Nat.strong_induction_on with
  | _ n ih =>
    match n, ih with
    | 0, _ => rw [legendre_zero]; simpa using UpPol.const (zero_le_one (α := ℝ))
    | 1, _ => rw [legendre_one]; exact UpPol.var
    | n + 2, ih =>
      have e : D (legendre (n + 2)) = D (legendre n) + C (2 * (n : ℝ) + 3) * legendre (n + 1) := by
        linear_combination legendre_sum_rule n
      have h1 := ((ih n (by omega)).deriv).mono (e := n + 1) (by omega)
      have h2 := (UpPol.const (by positivity : (0 : ℝ) ≤ 2 * n + 3)).mul (ih (n + 1) (by omega))
      refine UpPol.of_deriv (d := n + 1) ?_ (by rw [legendre_eval_one]; norm_num) (legendre_degree _).1
      rw [e]
      exact h1.add (h2.mono (by omega))

theorem up_dl (l m : ℕ) : UpPol (l - m) (dl l m) := by
  induction m with
  | zero => simpa [dl] using up_legendre l
  | succ m ih => rw [dl_succ]; exact ih.deriv.mono (by omega)

theorem up_u : UpPol 2 uPol := by
  refine ⟨fun i => ?_, ?_⟩
  · have : uPol.comp (X + 1) = X ^ 2 + C 2 * X := by
      unfold uPol
      simp only [sub_comp, pow_comp, X_comp, one_comp, map_ofNat]
      ring
    rw [this, coeff_add, coeff_X_pow, coeff_C_mul, coeff_X]
    split <;> split <;> norm_num
  · unfold uPol
    refine (natDegree_sub_le _ _).trans ?_
    simp

theorem up_tP {l m : ℕ} (h : m + 1 ≤ l) : UpPol (l - m) (tP l (m + 1)) := by
  unfold tP
  refine UpPol.add ?_ ?_
  · by_cases h2 : m + 2 ≤ l
    · exact (up_u.mul (up_dl l (m + 2))).mono (by omega)
    · have : dl l (m + 1 + 1) = 0 := by
        have := (up_dl l (m + 1)).deg
        rw [dl_succ, eq_C_of_natDegree_le_zero (by omega : (dl l (m + 1)).natDegree ≤ 0), derivative_C]
      rw [this, mul_zero]
      exact UpPol.zero
  · exact (((UpPol.const (Nat.cast_nonneg (α := ℝ) (m + 1))).mul UpPol.var).mul (up_dl l (m + 1))).mono (by omega)

theorem up_ee {a b m : ℕ} (ha : 1 ≤ a) (hb : 1 ≤ b) (hma : m ≤ a) (hmb : m ≤ b) : UpPol (a + b) (eePol a b m) := by
  cases m with
  | zero => exact (up_u.mul ((up_dl a 1).mul (up_dl b 1))).mono (by omega)
  | succ m =>
    have h1 := (up_tP hma).mul (up_tP hmb)
    have h2 := (UpPol.const (sq_nonneg (((m + 1 : ℕ) : ℝ)))).mul ((up_dl a (m + 1)).mul (up_dl b (m + 1)))
    exact ((up_u.pow m).mul (h1.add (h2.mono (by omega)))).mono (by omega)

theorem up_em {a b m : ℕ} (hma : m ≤ a) (hmb : m ≤ b) : UpPol (a + b) (emPol a b m) := by
  cases m with
  | zero => exact UpPol.zero
  | succ m =>
    have h1 := (up_tP hma).mul (up_dl b (m + 1))
    have h2 := (up_dl a (m + 1)).mul (up_tP hmb)
    have h3 := (UpPol.const (Nat.cast_nonneg (α := ℝ) (m + 1))).mul ((h1.mono (e := a + b - 2 * m - 1) (by omega)).add (h2.mono (by omega)))
    exact ((up_u.pow m).mul h3).mono (by omega)

/-- Translation coefficients at nearby arguments. -/
theorem fab_rel {m : ℕ} {w x y : ℝ} (hn : Near w x y) (hw : w ≤ 1 / 20) (P Q : Bool) {c c' : ℕ} (h1 : m ≤ c + 1) (h2 : m ≤ c' + 1) :
    |fab m x P Q c c' - fab m y P Q c c'| ≤ (Real.exp ((c + c' + 3 + 21 / 20 * y) * w) - 1) * fab m y P Q c c' := by
  have w0 := hn.w0
  have hy := hn.b0
  have hv := mul_pos (nV_pos (by omega : 1 ≤ c + 1) m) (nV_pos (by omega : 1 ≤ c' + 1) m)
  have key : ∀ p : ℝ[X], UpPol (c + 1 + (c' + 1)) p → (∀ t, 1 < t → 0 < p.eval t) →
      |lap x p - lap y p| ≤ (Real.exp ((c + c' + 3 + 21 / 20 * y) * w) - 1) * lap y p := by
    intro p hp h0
    have h := hp.lap_near h0 hn hw
    have e : ((c + 1 + (c' + 1) : ℕ) : ℝ) + 1 + 21 / 20 * y = c + c' + 3 + 21 / 20 * y := by push_cast; ring
    rw [e] at h
    have u1 := h.upper
    have u2 := h.symm.upper
    have px := h.a0
    have py := h.b0
    rw [abs_le]
    constructor
    · have e1 : 1 ≤ Real.exp ((c + c' + 3 + 21 / 20 * y) * w) := Real.one_le_exp h.w0
      generalize Real.exp ((c + c' + 3 + 21 / 20 * y) * w) = E at *
      nlinarith
    · linarith
  unfold fab
  rw [← mul_sub, abs_mul, abs_of_pos hv, mul_left_comm]
  refine mul_le_mul_of_nonneg_left ?_ hv.le
  split
  · exact key _ (up_ee (by omega) (by omega) h1 h2) fun t ht => eePol_pos (by omega) (by omega) h1 h2 ht
  · cases m with
    | zero => simp [emPol, lap_zero]
    | succ m => exact key _ (up_em h1 h2) fun t ht => emPol_pos h1 h2 ht

end CasSph
