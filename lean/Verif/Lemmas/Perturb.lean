import Verif.Lemmas.Dominated
import Verif.Lemmas.Truncation
import Verif.Props.FiniteSum
import Mathlib.Analysis.SpecificLimits.Normed

/-! Dependence of `ln det(1 - M)` on errors of the matrix `M`. -/

namespace CasSph

open Spec Filter Topology Matrix

section
variable {H : ℕ → ℕ → ℝ} {θ T κ : ℝ}

theorem gram_trace_nonneg (h : HSContr H θ T) (n p : ℕ) : 0 ≤ (gram 1 H n p).trace := by
  have := (h.trace_step n p 0).1
  simpa using this

theorem HSContr.trace_geom (h : HSContr H θ T) (n p j : ℕ) : (gram 1 H n p ^ (j + 1)).trace ≤ θ ^ j * (gram 1 H n p).trace := by
  induction j with
  | zero => simp
  | succ j ih =>
    refine ((h.trace_step n p (j + 1)).2 (by omega)).trans ?_
    rw [_root_.pow_succ θ, mul_comm (θ ^ j), mul_assoc]
    exact mul_le_mul_of_nonneg_left ih h.nonneg

/-- `(1+κ)^(j+1) - 1 ≤ (j+1) κ (1+κ)^j`. -/
theorem one_add_pow_sub (hκ : 0 ≤ κ) (j : ℕ) : (1 + κ) ^ (j + 1) - 1 ≤ (j + 1) * (κ * (1 + κ) ^ j) := by
  induction j with
  | zero => simp
  | succ j ih =>
    have h1 : 1 ≤ (1 + κ) ^ j := one_le_pow₀ (by linarith)
    have h0 : 0 ≤ κ * (1 + κ) ^ j := by positivity
    push_cast
    rw [_root_.pow_succ (1 + κ) (j + 1), _root_.pow_succ (1 + κ) j] at *
    nlinarith [mul_nonneg hκ h0]

theorem smul_traceSum {N : ℕ} (c : ℝ) (M : Matrix (Fin N) (Fin N) ℝ) (k : ℕ) :
    traceSum (c • M) k = ∑ j ∈ Finset.range k, c ^ (j + 1) * (M ^ (j + 1)).trace / ((j + 1 : ℕ) : ℝ) := by
  unfold traceSum
  rw [Finset.range_eq_Ico, Finset.sum_Ico_add' (fun j : ℕ => c ^ j * (M ^ j).trace / (j : ℝ)) 0 k 1, zero_add, Finset.Ico_add_one_right_eq_Icc]
  refine Finset.sum_congr rfl fun j _ => ?_
  rw [smul_pow, Matrix.trace_smul, smul_eq_mul]

/-- Change of `ln det(1 - M)` under errors of `M` of at most `κ` times the dominating matrix. -/
theorem HSContr.perturb (h : HSContr H θ T) (hκ : 0 ≤ κ) (hs : (1 + κ) * θ < 1) {n p : ℕ} {A B : Matrix (Fin n) (Fin n) ℝ}
    (hB : ∀ i j, |B i j| ≤ gram 1 H n p i j) (hAB : ∀ i j, |A i j - B i j| ≤ κ * gram 1 H n p i j) :
    0 < (1 - A).det ∧ 0 < (1 - B).det ∧
    |Real.log (1 - A).det - Real.log (1 - B).det| ≤ κ / (1 - (1 + κ) * θ) * (gram 1 H n p).trace := by
  set N := gram 1 H n p with hN
  have hθ := h.nonneg
  have hn := fun u => h.norm_le (σ := 1) (.inl rfl) (p := p) (n := n) u
  have hP : ∀ u : Fin n → ℝ, ∑ i, (((1 + κ) • N) *ᵥ u) i ^ 2 ≤ ((1 + κ) * θ) ^ 2 * ∑ i, u i ^ 2 := by
    intro u
    simp only [Matrix.smul_mulVec, Pi.smul_apply, smul_eq_mul, mul_pow]
    rw [← Finset.mul_sum, mul_assoc]
    exact mul_le_mul_of_nonneg_left (hn u) (sq_nonneg _)
  have h0 : 0 ≤ (1 + κ) * θ := by positivity
  have hPB : ∀ i j, |A i j - B i j| ≤ ((1 + κ) • N) i j - N i j := by
    intro i j
    rw [Matrix.smul_apply, smul_eq_mul]
    refine (hAB i j).trans (le_of_eq (by ring))
  have hA : ∀ i j, |A i j| ≤ ((1 + κ) • N) i j := by
    intro i j
    have h1 := hPB i j
    have h2 := hB i j
    rw [abs_le] at h1 h2 ⊢
    constructor <;> linarith [h1.1, h1.2, h2.1, h2.2]
  have sA := spectrum_of_dominated h0 hs hP hA
  have sB := spectrum_of_dominated h.nonneg h.lt hn hB
  have dA := det_pos_of_dominated h0 hs hP hA
  have dB := det_pos_of_dominated h.nonneg h.lt hn hB
  refine ⟨dA, dB, ?_⟩
  have lA := traceSum_tendsto sA
  have lB := traceSum_tendsto sB
  rw [abs_of_pos dA] at lA
  rw [abs_of_pos dB] at lB
  have lim := (lA.sub lB).abs
  have hq : 0 < 1 - (1 + κ) * θ := by linarith
  have hb : ∀ k, |traceSum A k - traceSum B k| ≤ κ / (1 - (1 + κ) * θ) * N.trace := by
    intro k
    refine (abs_trace_sub_le hPB hB k).trans ?_
    rw [smul_traceSum, show traceSum N k = traceSum ((1 : ℝ) • N) k by rw [one_smul], smul_traceSum, ← Finset.sum_sub_distrib]
    have step : ∀ j ∈ Finset.range k, (1 + κ) ^ (j + 1) * (N ^ (j + 1)).trace / ((j + 1 : ℕ) : ℝ) - 1 ^ (j + 1) * (N ^ (j + 1)).trace / ((j + 1 : ℕ) : ℝ) ≤
        κ * N.trace * ((1 + κ) * θ) ^ j := by
      intro j _
      have t := h.trace_geom n p j
      have t0 := (h.trace_step n p j).1
      rw [← hN] at t t0
      have e := one_add_pow_sub hκ j
      rw [← sub_div, one_pow, ← sub_mul, div_le_iff₀ (by positivity)]
      push_cast
      calc ((1 + κ) ^ (j + 1) - 1) * (N ^ (j + 1)).trace ≤ ((j + 1) * (κ * (1 + κ) ^ j)) * (θ ^ j * N.trace) :=
            mul_le_mul e t t0 (by positivity)
        _ = _ := by rw [mul_pow]; ring
    refine (Finset.sum_le_sum step).trans ?_
    rw [← Finset.mul_sum]
    have hg := geom_sum_eq (ne_of_lt hs) k
    have : ∑ j ∈ Finset.range k, ((1 + κ) * θ) ^ j ≤ 1 / (1 - (1 + κ) * θ) := by
      rw [hg, ← neg_div_neg_eq, neg_sub, neg_sub]
      exact div_le_div_of_nonneg_right (by linarith [pow_nonneg h0 k]) hq.le
    calc κ * N.trace * ∑ j ∈ Finset.range k, ((1 + κ) * θ) ^ j ≤ κ * N.trace * (1 / (1 - (1 + κ) * θ)) :=
          mul_le_mul_of_nonneg_left this (mul_nonneg hκ (gram_trace_nonneg h n p))
      _ = _ := by ring
  have := le_of_tendsto lim (Eventually.of_forall hb)
  rw [show -Real.log (1 - A).det - -Real.log (1 - B).det = -(Real.log (1 - A).det - Real.log (1 - B).det) by ring, abs_neg] at this
  exact this

/-- The trace is at most the logarithm of the determinant, or twice that for opposite contrasts. -/
theorem HSContr.trace_le_log (h : HSContr H θ T) (n p : ℕ) :
    (gram 1 H n p).trace ≤ -Real.log (1 - gram 1 H n p).det ∧ (gram 1 H n p).trace ≤ 2 * Real.log (1 - gram (-1) H n p).det := by
  constructor
  · have := (h.truncation n p 1).1
    simp only [traceSum, Finset.Icc_self, Finset.sum_singleton, pow_one, Nat.cast_one, div_one] at this
    linarith
  · have hlim := traceSum_tendsto (h.spectrum (.inr rfl) n p)
    rw [abs_of_pos (h.pos (.inr rfl) n p).1] at hlim
    have e : ∀ k, traceSum (gram (-1) H n p) k = -∑ j ∈ Finset.range k, (-1) ^ j * ((gram 1 H n p ^ (j + 1)).trace / ((j + 1 : ℕ) : ℝ)) := by
      intro k
      rw [show gram (-1) H n p = (-1 : ℝ) • gram 1 H n p by unfold gram; rw [one_smul], smul_traceSum, ← Finset.sum_neg_distrib]
      refine Finset.sum_congr rfl fun j _ => ?_
      rw [_root_.pow_succ (-1 : ℝ)]
      ring
    simp only [e] at hlim
    have hl := hlim.neg
    simp only [neg_neg] at hl
    have hanti : Antitone fun j : ℕ => (gram 1 H n p ^ (j + 1)).trace / ((j + 1 : ℕ) : ℝ) := by
      refine antitone_nat_of_succ_le fun j => ?_
      have t := (h.trace_step n p (j + 1)).2 (by omega)
      have t0 := (h.trace_step n p j).1
      refine div_le_div₀ t0 (t.trans (mul_le_of_le_one_left t0 h.lt.le)) (by positivity) (by push_cast; linarith)
    have := hanti.alternating_series_le_tendsto hl 1
    simp only [mul_one, Finset.sum_range_succ, Finset.sum_range_zero, zero_add, pow_zero, pow_one, one_mul, Nat.cast_one, div_one] at this
    have t := h.trace_geom n p 1
    have t0 := gram_trace_nonneg h n p
    rw [pow_one] at t
    push_cast at this t
    have hlt := h.lt
    have : (gram 1 H n p ^ (1 + 1)).trace ≤ (gram 1 H n p).trace := t.trans (mul_le_of_le_one_left t0 hlt.le)
    linarith

theorem abs_gram {σ : ℝ} (hσ : σ = 1 ∨ σ = -1) (h0 : ∀ i s, 0 ≤ H i s) {n p : ℕ} (i j : Fin n) :
    |gram σ H n p i j| = gram 1 H n p i j := by
  rw [gram_apply, gram_apply, abs_mul, one_mul]
  have : |σ| = 1 := by rcases hσ with e | e <;> rw [e] <;> simp
  rw [this, one_mul]
  exact abs_of_nonneg (Finset.sum_nonneg fun s _ => mul_nonneg (h0 _ _) (h0 _ _))

/-- Relative errors of all entries. -/
theorem HSContr.perturb_rel (h : HSContr H θ T) (h0 : ∀ i s, 0 ≤ H i s) {σ : ℝ} (hσ : σ = 1 ∨ σ = -1) (hκ : 0 ≤ κ) (hs : (1 + κ) * θ < 1)
    {n p : ℕ} {A : Matrix (Fin n) (Fin n) ℝ} (hA : ∀ i j, |A i j - gram σ H n p i j| ≤ κ * |gram σ H n p i j|) :
    0 < (1 - A).det ∧ |Real.log (1 - A).det - Real.log (1 - gram σ H n p).det| ≤ κ / (1 - (1 + κ) * θ) * (gram 1 H n p).trace ∧
    (σ = 1 → |Real.log (1 - A).det - Real.log (1 - gram σ H n p).det| ≤ κ / (1 - (1 + κ) * θ) * |Real.log (1 - gram σ H n p).det|) ∧
    (σ = -1 → |Real.log (1 - A).det - Real.log (1 - gram σ H n p).det| ≤ 2 * κ / (1 - (1 + κ) * θ) * |Real.log (1 - gram σ H n p).det|) := by
  have key := h.perturb hκ hs (B := gram σ H n p) (fun i j => (abs_gram hσ h0 i j).le) (A := A) (fun i j => by
    rw [← abs_gram hσ h0]; exact hA i j)
  have hq : 0 ≤ κ / (1 - (1 + κ) * θ) := div_nonneg hκ (by linarith)
  refine ⟨key.1, key.2.2, fun e => ?_, fun e => ?_⟩
  · refine key.2.2.trans (mul_le_mul_of_nonneg_left ?_ hq)
    rw [e, abs_of_nonpos (h.sign n p).1]
    exact (h.trace_le_log n p).1
  · refine key.2.2.trans ?_
    rw [mul_div_assoc, mul_comm (2 : ℝ), mul_assoc]
    refine mul_le_mul_of_nonneg_left ?_ hq
    rw [e, abs_of_nonneg (h.sign n p).2]
    exact (h.trace_le_log n p).2

/-- Errors of the factors on the diagonals. -/
theorem mixed_sub_le {α β α' β' : ℕ → ℝ} {δ : ℝ} (hδ : 0 ≤ δ) (h0 : ∀ i s, 0 ≤ H i s) (ha : ∀ i, |α i| ≤ 1) (hb : ∀ s, |β s| ≤ 1)
    (ha' : ∀ i, |α' i - α i| ≤ δ) (hb' : ∀ s, |β' s - β s| ≤ δ) {n p : ℕ} (i j : Fin n) :
    |mixed α' β' H n p i j - mixed α β H n p i j| ≤ ((1 + δ) ^ 2 - 1) * gram 1 H n p i j := by
  rw [gram_apply, mixed, mixed, of_apply, of_apply, one_mul, Finset.mul_sum, Finset.mul_sum, Finset.mul_sum, ← Finset.sum_sub_distrib]
  refine (Finset.abs_sum_le_sum_abs _ _).trans (Finset.sum_le_sum fun s _ => ?_)
  have e : α' i * (H i s * β' s * H j s) - α i * (H i s * β s * H j s) = (α' i * β' s - α i * β s) * (H i s * H j s) := by ring
  rw [e, abs_mul, abs_of_nonneg (mul_nonneg (h0 _ _) (h0 _ _))]
  refine mul_le_mul_of_nonneg_right ?_ (mul_nonneg (h0 _ _) (h0 _ _))
  have e2 : α' i * β' s - α i * β s = (α' i - α i) * (β' s - β s) + α i * (β' s - β s) + (α' i - α i) * β s := by ring
  rw [e2]
  have x1 := ha i
  have x2 := hb s
  have x3 := ha' i
  have x4 := hb' s
  calc |(α' i - α i) * (β' s - β s) + α i * (β' s - β s) + (α' i - α i) * β s| ≤
        |α' i - α i| * |β' s - β s| + |α i| * |β' s - β s| + |α' i - α i| * |β s| := by
        refine (abs_add_three _ _ _).trans (le_of_eq ?_)
        rw [abs_mul, abs_mul, abs_mul]
    _ ≤ δ * δ + 1 * δ + δ * 1 := by
        refine add_le_add (add_le_add ?_ ?_) ?_ <;> exact mul_le_mul (by assumption) (by assumption) (abs_nonneg _) (by linarith)
    _ = _ := by ring

end

/-! ## Matrices with a diagonal factor -/

theorem Fac.perturb {ι : Type*} [Fintype ι] [DecidableEq ι] {M M' G : Matrix ι ι ℝ} {δ : ℝ} (h : Fac M G) (hG : ∀ i j, G i j = G j i)
    (hM : ∀ i j, |M' i j - M i j| ≤ δ * |M i j|) : ∃ G', Fac M' G' ∧ ∀ i j, |G' i j - G i j| ≤ δ * |G i j| := by
  obtain ⟨D, X, rfl, rfl⟩ := h
  simp only [diagonal_mul, mul_diagonal] at hM hG
  refine ⟨(of fun i j => if D i = 0 then 0 else M' i j / D i) * diagonal D, ⟨D, _, ?_, rfl⟩, ?_⟩
  · ext i j
    rw [diagonal_mul, of_apply]
    split_ifs with h0
    · have := hM i j
      rw [h0, zero_mul, abs_zero, mul_zero, sub_zero] at this
      rw [mul_zero]
      exact abs_nonpos_iff.mp this
    · field_simp
  · intro i j
    rw [mul_diagonal, mul_diagonal, of_apply]
    split_ifs with h0
    · have := hG i j
      rw [h0, mul_zero] at this
      rw [this]; simp
    · have e : M' i j / D i * D j - X i j * D j = (M' i j - D i * X i j) * (D j / D i) := by field_simp
      have e2 : X i j * D j = D i * X i j * (D j / D i) := by field_simp
      rw [e, e2, abs_mul, abs_mul _ (D j / D i), ← mul_assoc]
      exact mul_le_mul_of_nonneg_right (hM i j) (abs_nonneg _)

/-! ## A contraction that does not depend on the wavenumber -/

theorem Contr.smul {H H' : ℕ → ℕ → ℝ} {θ c : ℝ} (h : Contr H θ) (he : ∀ i s, H' i s = c * H i s) : Contr H' (c ^ 2 * θ) := by
  intro n p z
  have e : ∀ s : Fin p, (∑ i, z i * corner H' n p i s) ^ 2 = c ^ 2 * (∑ i, z i * corner H n p i s) ^ 2 := by
    intro s
    rw [← mul_pow, Finset.mul_sum]
    congr 1
    refine Finset.sum_congr rfl fun i _ => ?_
    show z i * H' i.1 s.1 = c * (z i * H i.1 s.1)
    rw [he]; ring
  simp only [e]
  rw [← Finset.mul_sum, mul_assoc]
  exact mul_le_mul_of_nonneg_left (h n p z) (sq_nonneg _)

/-- The kernel shrinks by `r1 r2/((r1 + d/2)(r2 + d/2))` at every wavenumber. -/
theorem kern_contr_ratio {ρ1 ρ2 x q1 q2 : ℝ} (h1 : 0 < ρ1) (h2 : 0 < ρ2) (hq1 : 0 < q1) (hq1' : q1 ≤ 1) (hq2 : 0 < q2) (hq2' : q2 ≤ 1)
    (hx : ρ1 + ρ2 ≤ x) {m c0 : ℕ} (hm : m ≤ c0 + 1) {A B : Bool → ℕ → ℝ} (hA : ∀ P c, A P c ≤ pecR P c (q1 * ρ1)) (hB : ∀ P c, B P c ≤ pecR P c (q2 * ρ2)) :
    Contr (kern m x c0 A B) (q1 * q2) := by
  have base : ∀ {q ρ : ℝ} {A : Bool → ℕ → ℝ}, 0 < q → q ≤ 1 → 0 < ρ → (∀ P c, A P c ≤ pecR P c (q * ρ)) → ∀ P c, A P c / q ≤ pecR P c ρ := by
    intro q ρ A hq hq' hρ hA P c
    have hp := pecR_power P c hq hq' hρ
    have hpp : 0 ≤ pecR P c ρ := (pecR_pos P c hρ).le
    rw [div_le_iff₀ hq]
    refine (hA P c).trans (hp.trans ?_)
    rw [mul_comm]
    refine mul_le_mul_of_nonneg_left ?_ hpp
    calc q ^ (2 * c + 1) ≤ q ^ 1 := pow_le_pow_of_le_one hq.le hq' (by omega)
      _ = q := pow_one q
  have c1 := (kern_contr h1 h2 hx hm (base hq1 hq1' h1 hA) (base hq2 hq2' h2 hB)).mono (θ' := 1) (by
    refine mul_le_one₀ (Real.exp_le_one_iff.mpr (by linarith)) (gamC_pos h1 h2 hx).le (gamC_le h1 h2 hx))
  have := Contr.smul (c := Real.sqrt (q1 * q2)) (H' := kern m x c0 A B) c1 (by
    intro i s
    unfold kern
    rw [Real.sqrt_mul hq1.le, Real.sqrt_div' _ hq1.le, Real.sqrt_div' _ hq2.le]
    have := (Real.sqrt_pos.mpr hq1).ne'
    have := (Real.sqrt_pos.mpr hq2).ne'
    field_simp)
  rwa [Real.sq_sqrt (by positivity), mul_one] at this

end CasSph
