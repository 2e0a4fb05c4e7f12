import Verif.Spec.FlFun
import Verif.Spec.FlDet
import Verif.Lemmas.RowSum

/-! # Elimination in rounded arithmetic -/

namespace CasSph

open Matrix Finset Spec

variable {n : ℕ} {A : FlFun} {u : ℝ}

/-- The exact result of a step of the elimination. -/
noncomputable def schur (a : Matrix (Fin (n + 1)) (Fin (n + 1)) ℝ) (p : Fin (n + 1)) : Matrix (Fin n) (Fin n) ℝ :=
  fun i j => a (Equiv.swap 0 p i.succ) j.succ - a (Equiv.swap 0 p i.succ) 0 / a p 0 * a p j.succ

/-- The determinant is up to its sign the pivot times the determinant of what remains. -/
theorem schur_det (a : Matrix (Fin (n + 1)) (Fin (n + 1)) ℝ) (p : Fin (n + 1)) (hp : a p 0 ≠ 0) : |a.det| = |a p 0| * |(schur a p).det| := by
  set b : Matrix (Fin (n + 1)) (Fin (n + 1)) ℝ := a.submatrix (Equiv.swap 0 p) id with hb
  have e0 : |b.det| = |a.det| := by
    rw [hb, det_permute, abs_mul]
    rcases Int.units_eq_one_or (Equiv.Perm.sign (Equiv.swap 0 p)) with h | h <;> simp [h]
  have b0 : ∀ j, b 0 j = a p j := fun j => by rw [hb, submatrix_apply, Equiv.swap_apply_left]; rfl
  set c : Matrix (Fin (n + 1)) (Fin (n + 1)) ℝ := fun i j => if i = 0 then b i j else b i j - b i 0 / a p 0 * b 0 j with hc
  have e1 : b.det = c.det := by
    refine det_eq_of_forall_row_eq_smul_add_const (fun i => if i = 0 then 0 else b i 0 / a p 0) 0 (if_pos rfl) fun i j => ?_
    rw [hc]
    simp only [if_true]
    split <;> ring
  have e2 : c.det = a p 0 * (schur a p).det := by
    rw [det_succ_column_zero, Fin.sum_univ_succ, Finset.sum_eq_zero, add_zero]
    · have : c 0 0 = a p 0 := by rw [hc]; simp only [if_true]; exact b0 0
      have h2 : c.submatrix (Fin.succAbove 0) Fin.succ = schur a p := by
        ext i j
        rw [submatrix_apply, Fin.zero_succAbove, hc]
        simp only [Fin.succ_ne_zero, if_false]
        rw [b0]
        rfl
      rw [this, h2]
      simp
    · intro i _
      have : c i.succ 0 = 0 := by
        rw [hc]
        simp only [Fin.succ_ne_zero, if_false]
        rw [b0]
        field_simp
        ring
      rw [this]
      ring
  rw [← e0, e1, e2, abs_mul]

/-- The elements of the inverse that belong to what remains. -/
noncomputable def schurPart (V : Matrix (Fin (n + 1)) (Fin (n + 1)) ℝ) (p : Fin (n + 1)) : Matrix (Fin n) (Fin n) ℝ :=
  fun i j => V i.succ (Equiv.swap 0 p j.succ)

/-- The inverse of what remains consists of elements of the inverse. -/
theorem schur_inv {a V : Matrix (Fin (n + 1)) (Fin (n + 1)) ℝ} (hV : a * V = 1) (p : Fin (n + 1)) (hp : a p 0 ≠ 0) :
    schur a p * schurPart V p = 1 := by
  have row : ∀ r s, ∑ k, a r k * V k s = (1 : Matrix (Fin (n + 1)) (Fin (n + 1)) ℝ) r s := fun r s => by rw [← hV, mul_apply]
  ext i j
  rw [mul_apply]
  have r1 := row (Equiv.swap 0 p i.succ) (Equiv.swap 0 p j.succ)
  have r2 := row p (Equiv.swap 0 p j.succ)
  rw [Fin.sum_univ_succ] at r1 r2
  have ne : p ≠ Equiv.swap 0 p j.succ := by
    intro h
    have := congrArg (Equiv.swap 0 p) h
    rw [Equiv.swap_apply_right, Equiv.swap_apply_self] at this
    exact (Fin.succ_ne_zero j) this.symm
  rw [one_apply_ne ne] at r2
  have one : (1 : Matrix (Fin (n + 1)) (Fin (n + 1)) ℝ) (Equiv.swap 0 p i.succ) (Equiv.swap 0 p j.succ) = (1 : Matrix (Fin n) (Fin n) ℝ) i j := by
    simp [one_apply]
  rw [one] at r1
  rw [← r1]
  have s2 : ∑ k : Fin n, a p k.succ * V k.succ (Equiv.swap 0 p j.succ) = -(a p 0 * V 0 (Equiv.swap 0 p j.succ)) := by linarith
  simp only [schur, schurPart, sub_mul, Finset.sum_sub_distrib, mul_assoc, ← Finset.mul_sum]
  rw [s2]
  field_simp
  ring

/-- The rows of a part of a matrix. -/
theorem schur_rows {V : Matrix (Fin (n + 1)) (Fin (n + 1)) ℝ} {K : ℝ} (hK : ∀ i, ∑ j, |V i j| ≤ K) (p : Fin (n + 1)) (i : Fin n) :
    ∑ j : Fin n, |schurPart V p i j| ≤ K := by
  refine le_trans ?_ (hK i.succ)
  rw [← Equiv.sum_comp (Equiv.swap 0 p) (fun j => |V i.succ j|), Fin.sum_univ_succ]
  simp only [schurPart]
  linarith [abs_nonneg (V i.succ (Equiv.swap 0 p 0))]

/-- The error of a step. -/
theorem elim_err (hA : RelErr A u) {a : Matrix (Fin (n + 1)) (Fin (n + 1)) ℝ} {p : Fin (n + 1)} (hp : a p 0 ≠ 0) (hm : ∀ i, |a i 0| ≤ |a p 0|) {ρ : ℝ}
    (ha : ∀ i j, |a i j| ≤ ρ) (i j : Fin n) :
    |A.elim a p i j - schur a p i j| ≤ 6 * u * ρ ∧ |A.elim a p i j| ≤ 2.1 * ρ := by
  have u0 := hA.u0
  have u1 := hA.u1
  set x := a (Equiv.swap 0 p i.succ) j.succ
  set y := a (Equiv.swap 0 p i.succ) 0 with hy
  set z := a p j.succ
  have hρ : 0 ≤ ρ := (abs_nonneg _).trans (ha p 0)
  have d1 := hA.div 1 (a p 0) hp
  have d2 := hA.mul (A.div 1 (a p 0)) y
  have d3 := hA.mul (A.mul (A.div 1 (a p 0)) y) z
  have d4 := hA.sub x (A.mul (A.mul (A.div 1 (a p 0)) y) z)
  set q := A.div 1 (a p 0)
  set m := A.mul q y
  set w := A.mul m z
  have hq : |1 / a p 0 * y| ≤ 1 := by
    rw [one_div_mul_eq_div, abs_div, div_le_one (abs_pos.mpr hp)]
    exact hm _
  have hz : |z| ≤ ρ := ha _ _
  have hx : |x| ≤ ρ := ha _ _
  have t1 : |q * y - 1 / a p 0 * y| ≤ u := by
    rw [← sub_mul, abs_mul]
    calc |q - 1 / a p 0| * |y| ≤ u * |1 / a p 0| * |y| := mul_le_mul_of_nonneg_right d1 (abs_nonneg _)
      _ = u * |1 / a p 0 * y| := by rw [abs_mul]; ring
      _ ≤ u * 1 := mul_le_mul_of_nonneg_left hq u0
      _ = u := mul_one u
  have t1' : |q * y| ≤ 1 + u := by
    have := abs_add_le (q * y - 1 / a p 0 * y) (1 / a p 0 * y)
    rw [sub_add_cancel] at this
    linarith
  have t2 : |m - 1 / a p 0 * y| ≤ 2.01 * u := by
    have := abs_add_le (m - q * y) (q * y - 1 / a p 0 * y)
    rw [sub_add_sub_cancel] at this
    nlinarith
  have t2' : |m| ≤ 1 + 2.01 * u := by
    have := abs_add_le (m - 1 / a p 0 * y) (1 / a p 0 * y)
    rw [sub_add_cancel] at this
    linarith
  have t3a : |m * z - 1 / a p 0 * y * z| ≤ 2.01 * u * ρ := by
    rw [← sub_mul, abs_mul]
    exact mul_le_mul t2 hz (abs_nonneg _) (by positivity)
  have t3b : |m * z| ≤ (1 + 2.01 * u) * ρ := by
    rw [abs_mul]
    exact mul_le_mul t2' hz (abs_nonneg _) (by positivity)
  have t3c : |w - m * z| ≤ u * ((1 + 2.01 * u) * ρ) := d3.trans (mul_le_mul_of_nonneg_left t3b u0)
  have uρ : u * (u * ρ) ≤ 1 / 100 * (u * ρ) := mul_le_mul_of_nonneg_right u1 (by positivity)
  have uρ' : u * ρ ≤ 1 / 100 * ρ := mul_le_mul_of_nonneg_right u1 hρ
  have uρ0 : 0 ≤ u * ρ := by positivity
  have t3 : |w - 1 / a p 0 * y * z| ≤ 3.04 * (u * ρ) := by
    have := abs_add_le (w - m * z) (m * z - 1 / a p 0 * y * z)
    rw [sub_add_sub_cancel] at this
    nlinarith
  have t3' : |w| ≤ 1.031 * ρ := by
    have := abs_add_le (w - m * z) (m * z)
    rw [sub_add_cancel] at this
    nlinarith
  have t4 : |x - w| ≤ 2.031 * ρ := by have := abs_sub x w; linarith
  have t4' : |A.sub x w - (x - w)| ≤ 2.031 * (u * ρ) := by
    refine d4.trans ?_
    have := mul_le_mul_of_nonneg_left t4 u0
    linarith
  have es : schur a p i j = x - 1 / a p 0 * y * z := by
    show x - y / a p 0 * z = _
    ring
  have ee : A.elim a p i j = A.sub x w := rfl
  rw [ee, es]
  constructor
  · have := abs_add_le (A.sub x w - (x - w)) (-(w - 1 / a p 0 * y * z))
    rw [abs_neg, show A.sub x w - (x - w) + -(w - 1 / a p 0 * y * z) = A.sub x w - (x - 1 / a p 0 * y * z) by ring] at this
    nlinarith
  · have := abs_add_le (A.sub x w - (x - w)) (x - w)
    rw [sub_add_cancel] at this
    nlinarith

/-- A perturbation of a matrix with known inverse. -/
theorem perturb {a b V : Matrix (Fin n) (Fin n) ℝ} (hV : a * V = 1) {K e : ℝ} (hK : ∀ i, ∑ j, |V i j| ≤ K) (hK0 : 0 ≤ K) (he0 : 0 ≤ e) (he : ∀ i j, |b i j - a i j| ≤ e)
    (hε : K * (n * e) ≤ 1 / 2) :
    |Real.log b.det - Real.log a.det| ≤ 2 * n * (K * (n * e)) ∧ b.det ≠ 0 ∧ ∃ W, b * W = 1 ∧ ∀ i, ∑ j, |W i j| ≤ K / (1 - K * (n * e)) := by
  have hne : 0 ≤ n * e := by positivity
  have hVa : V * a = 1 := mul_eq_one_comm.mp hV
  have hX : ∀ i, ∑ j, |(V * (b - a)) i j| ≤ K * (n * e) := rowSum_mul hK (fun i => by
    calc ∑ j, |(b - a) i j| ≤ ∑ _j : Fin n, e := Finset.sum_le_sum fun j _ => he i j
      _ = n * e := by simp) hne
  have h0 : 0 ≤ K * (n * e) := by positivity
  have eb : b = a * (1 + V * (b - a)) := by rw [mul_add, mul_one, ← Matrix.mul_assoc, hV, Matrix.one_mul]; abel
  have hd := near_one_det_ne hX (by linarith)
  have ha : a.det ≠ 0 := fun h => by
    have := congrArg det hV
    rw [det_mul, h, zero_mul, det_one] at this
    exact zero_ne_one this
  have edet : b.det = a.det * (1 + V * (b - a)).det := by conv_lhs => rw [eb, det_mul]
  refine ⟨?_, by rw [edet]; exact mul_ne_zero ha hd, (1 + V * (b - a))⁻¹ * V, ?_, ?_⟩
  · rw [edet, Real.log_mul ha hd, add_sub_cancel_left]
    exact near_one_logdet hX h0 hε
  · have := mul_nonsing_inv _ (Ne.isUnit hd)
    calc b * ((1 + V * (b - a))⁻¹ * V) = a * (1 + V * (b - a)) * ((1 + V * (b - a))⁻¹ * V) := by rw [← eb]
      _ = 1 := by rw [Matrix.mul_assoc, ← Matrix.mul_assoc _ _ V, this, Matrix.one_mul, hV]
  · intro i
    have hW := mul_nonsing_inv _ (Ne.isUnit hd)
    refine (rowSum_mul (near_one_inv hX h0 (by linarith) hW) hK hK0 i).trans (le_of_eq ?_)
    ring

/-- One step: the pivot is not small, and the inverse of what remains is known. -/
theorem elim_step (hA : RelErr A u) {ρ K ε : ℝ} (hK : 0 ≤ K) (hρ : 0 ≤ ρ) {k : ℕ} (hε0 : 0 ≤ ε) (hε1 : ε ≤ 1 / 2) (hpow : 1 / 2 ≤ (1 - ε) ^ k)
    (hsm : 2 * K * (n * (6 * u * ρ)) ≤ ε) {a V : Matrix (Fin (n + 1)) (Fin (n + 1)) ℝ} (hV : a * V = 1) (hVK : ∀ i, ∑ j, |V i j| ≤ K / (1 - ε) ^ k)
    (ha : ∀ i j, |a i j| ≤ ρ) {p : Fin (n + 1)} (hm : ∀ i, |a i 0| ≤ |a p 0|) :
    1 ≤ 2 * K * |a p 0| ∧ a p 0 ≠ 0 ∧ |Real.log (A.elim a p).det - Real.log (schur a p).det| ≤ 2 * n * ε ∧
      ∃ W, A.elim a p * W = 1 ∧ ∀ i, ∑ j, |W i j| ≤ K / (1 - ε) ^ (k + 1) := by
  have u0 := hA.u0
  have hKk : K / (1 - ε) ^ k ≤ 2 * K := by
    rw [div_le_iff₀ (by linarith)]
    nlinarith
  have hKk0 : 0 ≤ K / (1 - ε) ^ k := by positivity
  have hVa : V * a = 1 := mul_eq_one_comm.mp hV
  have hinv : 1 ≤ 2 * K * |a p 0| := by
    have e : ∑ j, V 0 j * a j 0 = 1 := by rw [← mul_apply, hVa, one_apply_eq]
    calc (1 : ℝ) = |∑ j, V 0 j * a j 0| := by rw [e, abs_one]
      _ ≤ ∑ j, |V 0 j| * |a p 0| := (abs_sum_le_sum_abs _ _).trans (Finset.sum_le_sum fun j _ => by
          rw [abs_mul]; exact mul_le_mul_of_nonneg_left (hm j) (abs_nonneg _))
      _ = (∑ j, |V 0 j|) * |a p 0| := by rw [Finset.sum_mul]
      _ ≤ 2 * K * |a p 0| := mul_le_mul_of_nonneg_right ((hVK 0).trans hKk) (abs_nonneg _)
  have hp0 : a p 0 ≠ 0 := fun h => by rw [h, abs_zero, mul_zero] at hinv; linarith
  have hS := schur_inv hV p hp0
  have hSK : ∀ i : Fin n, ∑ j : Fin n, |schurPart V p i j| ≤ K / (1 - ε) ^ k := schur_rows hVK p
  have he : ∀ i j, |A.elim a p i j - schur a p i j| ≤ 6 * u * ρ := fun i j => (elim_err hA hp0 hm ha i j).1
  have hsmall : K / (1 - ε) ^ k * (n * (6 * u * ρ)) ≤ ε := le_trans (mul_le_mul_of_nonneg_right hKk (by positivity)) hsm
  obtain ⟨p1, p2, W, hW, hWK⟩ := perturb hS hSK hKk0 (by positivity) he (hsmall.trans hε1)
  refine ⟨hinv, hp0, p1.trans (mul_le_mul_of_nonneg_left hsmall (by positivity)), W, hW, fun i => (hWK i).trans ?_⟩
  rw [pow_succ, ← div_div]
  exact div_le_div_of_nonneg_left hKk0 (by linarith) (by linarith)

/-- With partial pivoting the elements grow at most by the factor `2.1` in each step. -/
theorem growth_auto (hA : RelErr A u) {piv : Pivoting} (hpiv : IsPartial piv) {μ K : ℝ} {N : ℕ} (hK : 0 ≤ K) (hμ : 0 ≤ μ)
    (hN : 24 * N ^ 2 * (K * (u * (2.1 ^ N * μ))) ≤ 1) :
    ∀ (n k : ℕ), n + k = N → ∀ a V : Matrix (Fin n) (Fin n) ℝ, a * V = 1 → (∀ i, ∑ j, |V i j| ≤ K / (1 - 12 * N * (K * (u * (2.1 ^ N * μ)))) ^ k) →
      (∀ i j, |a i j| ≤ 2.1 ^ k * μ) → GrowthLE A piv (2.1 ^ N * μ) n a := by
  have u0 := hA.u0
  have hρ : 0 ≤ 2.1 ^ N * μ := by positivity
  intro n
  induction n with
  | zero => intros; trivial
  | succ n ih =>
    intro k hk a V hV hVK ha
    have hle : (2.1 : ℝ) ^ k * μ ≤ 2.1 ^ N * μ := mul_le_mul_of_nonneg_right (pow_le_pow_right₀ (by norm_num) (by omega)) hμ
    set ρ := 2.1 ^ N * μ
    have hE0 : 0 ≤ K * (u * ρ) := by positivity
    set ε := 12 * N * (K * (u * ρ)) with hε
    have hε0 : 0 ≤ ε := by positivity
    have hNε : (N : ℝ) * ε ≤ 1 / 2 := by rw [hε]; nlinarith
    have hN1 : (1 : ℝ) ≤ N := by exact_mod_cast (by omega : 1 ≤ N)
    have hkN : (k : ℝ) + 1 ≤ N := by exact_mod_cast (by omega : k + 1 ≤ N)
    have hnN : (n : ℝ) ≤ N := by exact_mod_cast (by omega : n ≤ N)
    have hε1 : ε ≤ 1 / 2 := by nlinarith
    have hpow : 1 / 2 ≤ (1 - ε) ^ k := by
      have := one_add_mul_le_pow (show (-2 : ℝ) ≤ -ε by linarith) k
      rw [← sub_eq_add_neg] at this
      nlinarith
    have hsm : 2 * K * (n * (6 * u * ρ)) ≤ ε := by
      calc 2 * K * (n * (6 * u * ρ)) ≤ 2 * K * (N * (6 * u * ρ)) := by gcongr
        _ = ε := by rw [hε]; ring
    obtain ⟨-, hp0, -, W, hW, hWK⟩ := elim_step hA hK hρ hε0 hε1 hpow hsm hV hVK (fun i j => (ha i j).trans hle) (hpiv n a)
    refine ⟨fun i j => (ha i j).trans hle, ih (k + 1) (by omega) _ W hW hWK fun i j => ?_⟩
    refine (elim_err hA hp0 (hpiv n a) ha i j).2.trans (le_of_eq ?_)
    rw [_root_.pow_succ]; ring

/-- Elimination in rounded arithmetic: the pivots are not zero, neither large nor small, and their logarithms add up to that of the determinant. -/
theorem pivots_err (hA : RelErr A u) {piv : Pivoting} (hpiv : IsPartial piv) {ρ K Λ : ℝ} {N : ℕ} (hK : 0 ≤ K) (hρ : 0 ≤ ρ)
    (hN : 24 * N ^ 2 * (K * (u * ρ)) ≤ 1) (hΛ : Real.log ρ ≤ Λ) (hΛ' : Real.log (2 * K) ≤ Λ) :
    ∀ (n k : ℕ), n + k = N → ∀ a V : Matrix (Fin n) (Fin n) ℝ, a * V = 1 → (∀ i, ∑ j, |V i j| ≤ K / (1 - 12 * N * (K * (u * ρ))) ^ k) → GrowthLE A piv ρ n a →
      (∀ d ∈ A.pivots piv n a, d ≠ 0 ∧ |Real.log (|d|)| ≤ Λ) ∧ (A.pivots piv n a).length = n ∧
      |((A.pivots piv n a).map fun d => Real.log |d|).sum - Real.log a.det| ≤ n * (24 * N ^ 2 * (K * (u * ρ))) := by
  have u0 := hA.u0
  have hE0 : 0 ≤ K * (u * ρ) := by positivity
  set ε := 12 * N * (K * (u * ρ)) with hε
  have hε0 : 0 ≤ ε := by positivity
  have hNε : (N : ℝ) * ε ≤ 1 / 2 := by rw [hε]; nlinarith
  intro n
  induction n with
  | zero =>
    intro k _ a V _ _ _
    simp [FlFun.pivots]
  | succ n ih =>
    intro k hk a V hV hVK hg
    have hN1 : (1 : ℝ) ≤ N := by exact_mod_cast (by omega : 1 ≤ N)
    have hkN : (k : ℝ) + 1 ≤ N := by exact_mod_cast (by omega : k + 1 ≤ N)
    have hnN : (n : ℝ) ≤ N := by exact_mod_cast (by omega : n ≤ N)
    have hε1 : ε ≤ 1 / 2 := by nlinarith
    have hpow : 1 / 2 ≤ (1 - ε) ^ k := by
      have := one_add_mul_le_pow (show (-2 : ℝ) ≤ -ε by linarith) k
      rw [← sub_eq_add_neg] at this
      nlinarith
    obtain ⟨ha, hg'⟩ := hg
    set p := piv n a with hp
    have hsm : 2 * K * (n * (6 * u * ρ)) ≤ ε := by
      calc 2 * K * (n * (6 * u * ρ)) ≤ 2 * K * (N * (6 * u * ρ)) := by gcongr
        _ = ε := by rw [hε]; ring
    obtain ⟨hinv, hp0, p1, W, hW, hWK'⟩ := elim_step hA hK hρ hε0 hε1 hpow hsm hV hVK ha (hpiv n a)
    have hS := schur_inv hV p hp0
    have hpp : 0 < |a p 0| := abs_pos.mpr hp0
    have hlog : |Real.log (|a p 0|)| ≤ Λ := by
      rw [abs_le]
      constructor
      · have h2K : 0 < 2 * K := by
          by_contra hh
          nlinarith
        have := Real.log_le_log one_pos hinv
        rw [Real.log_one, Real.log_mul h2K.ne' hpp.ne'] at this
        linarith
      · exact (Real.log_le_log hpp (ha p 0)).trans hΛ
    obtain ⟨q1, q2, q3⟩ := ih (k + 1) (by omega) (A.elim a p) W hW hWK' hg'
    have ep : A.pivots piv (n + 1) a = a p 0 :: A.pivots piv n (A.elim a p) := rfl
    rw [ep]
    refine ⟨fun d hd => ?_, by rw [List.length_cons, q2], ?_⟩
    · rcases List.mem_cons.mp hd with rfl | hd
      · exact ⟨hp0, hlog⟩
      · exact q1 d hd
    · rw [List.map_cons, List.sum_cons]
      have hsd : (schur a p).det ≠ 0 := fun h => by
        have := congrArg det hS
        rw [det_mul, h, zero_mul, det_one] at this
        exact zero_ne_one this
      have hl : Real.log a.det = Real.log |a p 0| + Real.log (schur a p).det := by
        rw [← Real.log_abs a.det, schur_det a p hp0, Real.log_mul hpp.ne' (abs_pos.mpr hsd).ne', Real.log_abs (schur a p).det]
      rw [hl]
      have hst : 2 * n * ε ≤ 24 * N ^ 2 * (K * (u * ρ)) := by
        calc 2 * n * ε ≤ 2 * N * ε := by gcongr
          _ = 24 * N ^ 2 * (K * (u * ρ)) := by rw [hε]; ring
      have := abs_add_le (((A.pivots piv n (A.elim a p)).map fun d => Real.log |d|).sum - Real.log (A.elim a p).det) (Real.log (A.elim a p).det - Real.log (schur a p).det)
      rw [sub_add_sub_cancel] at this
      rw [show Real.log |a p 0| + ((A.pivots piv n (A.elim a p)).map fun d => Real.log |d|).sum - (Real.log |a p 0| + Real.log (schur a p).det) =
        ((A.pivots piv n (A.elim a p)).map fun d => Real.log |d|).sum - Real.log (schur a p).det by ring]
      push_cast
      linarith

/-- The sum of the logarithms in rounded arithmetic. -/
theorem logsum_err (hA : RelErr A u) {Λ : ℝ} (hΛ : 0 ≤ Λ) : ∀ (l : List ℝ) (s t : ℝ) (k : ℕ), (∀ d ∈ l, d ≠ 0 ∧ |Real.log (|d|)| ≤ Λ) → |t| ≤ k * Λ →
    |s - t| ≤ ((1 + u) ^ (k + 1) - 1) * (k * Λ) →
      |l.foldl (fun s d => A.add s (A.log |d|)) s - (t + (l.map fun d => Real.log |d|).sum)| ≤ ((1 + u) ^ (k + l.length + 1) - 1) * ((k + l.length : ℕ) * Λ) := by
  have u0 := hA.u0
  intro l
  induction l with
  | nil =>
    intro s t k _ _ h
    simpa using h
  | cons d l ih =>
    intro s t k hl ht h
    obtain ⟨hd, hd'⟩ := hl d (by simp)
    have h1 := hA.log |d| (abs_pos.mpr hd)
    have h2 := hA.add s (A.log |d|)
    have := ih (A.add s (A.log |d|)) (t + Real.log |d|) (k + 1) (fun x hx => hl x (by simp [hx])) ?_ ?_
    · rw [List.foldl_cons, List.map_cons, List.sum_cons, List.length_cons]
      rw [show k + 1 + l.length = k + (l.length + 1) by omega] at this
      rw [← add_assoc]
      exact this
    · push_cast
      have := abs_add_le t (Real.log |d|)
      linarith
    · set P := (1 + u) ^ (k + 1) with hP
      have hP1 : 1 ≤ P := one_le_pow₀ (by linarith)
      have e1 : |s + A.log |d| - (t + Real.log |d|)| ≤ (P - 1) * (k * Λ) + u * Λ := by
        have := abs_add_le (s - t) (A.log |d| - Real.log |d|)
        rw [show s - t + (A.log |d| - Real.log |d|) = s + A.log |d| - (t + Real.log |d|) by ring] at this
        have := mul_le_mul_of_nonneg_left hd' u0
        linarith
      have e2 : |t + Real.log (|d|)| ≤ (k + 1) * Λ := by
        have := abs_add_le t (Real.log |d|)
        linarith
      have e3 : |s + A.log (|d|)| ≤ (k + 1) * Λ + ((P - 1) * (k * Λ) + u * Λ) := by
        have := abs_add_le (s + A.log |d| - (t + Real.log |d|)) (t + Real.log |d|)
        rw [sub_add_cancel] at this
        linarith
      have e4 : |A.add s (A.log |d|) - (t + Real.log |d|)| ≤ u * ((k + 1) * Λ + ((P - 1) * (k * Λ) + u * Λ)) + ((P - 1) * (k * Λ) + u * Λ) := by
        have := abs_add_le (A.add s (A.log |d|) - (s + A.log |d|)) (s + A.log |d| - (t + Real.log |d|))
        rw [sub_add_sub_cancel] at this
        have := mul_le_mul_of_nonneg_left e3 u0
        linarith
      refine e4.trans ?_
      have hPu : 1 + u ≤ P := by
        rw [hP, pow_succ]
        have : 1 ≤ (1 + u) ^ k := one_le_pow₀ (by linarith)
        nlinarith
      rw [_root_.pow_succ, ← hP]
      push_cast
      have hk : 0 ≤ (k : ℝ) * Λ := by positivity
      have key : ((P * (1 + u) - 1) * ((k + 1) * Λ)) - (u * ((k + 1) * Λ + ((P - 1) * (k * Λ) + u * Λ)) + ((P - 1) * (k * Λ) + u * Λ)) = (1 + u) * (P - 1 - u) * Λ := by
        ring
      have : 0 ≤ (1 + u) * (P - 1 - u) * Λ := mul_nonneg (mul_nonneg (by linarith) (by linarith)) hΛ
      linarith

end CasSph
