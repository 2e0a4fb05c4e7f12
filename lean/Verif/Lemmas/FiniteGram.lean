import Verif.Lemmas.Dominated
import Verif.Lemmas.FiniteContr
import Verif.Lemmas.MieSize
import Verif.Lemmas.ZeroFreq

/-! The round-trip operator of two spheres at a finite wavenumber is, up to similarity and a sign, the Gram matrix of the
kernel of `Lemmas/FiniteContr`. -/

namespace CasSph

open Spec Matrix

section general

variable {ι κ : Type*} [Fintype ι] [DecidableEq ι] [Fintype κ] [DecidableEq κ]

theorem mul_pow_comm (P Q : Matrix ι ι ℝ) (j : ℕ) : (P * Q) ^ (j + 1) = P * ((Q * P) ^ j * Q) := by
  induction j with
  | zero => simp
  | succ j ih => rw [_root_.pow_succ, ih, _root_.pow_succ (Q * P) j]; simp only [Matrix.mul_assoc]

theorem sameRoundTrip_comm (P Q : Matrix ι ι ℝ) : SameRoundTrip (P * Q) (Q * P) := by
  refine ⟨det_one_sub_mul_comm P Q, fun j => ?_⟩
  cases j with
  | zero => simp
  | succ j => rw [mul_pow_comm, Matrix.trace_mul_comm, Matrix.mul_assoc, _root_.pow_succ]

theorem Fac.same {M G : Matrix ι ι ℝ} (h : Fac M G) : SameRoundTrip M G := by
  obtain ⟨D, X, rfl, rfl⟩ := h
  exact sameRoundTrip_comm _ _

theorem submatrix_pow (M : Matrix ι ι ℝ) (e : κ ≃ ι) (j : ℕ) : (M.submatrix e e) ^ j = (M ^ j).submatrix e e := by
  induction j with
  | zero => simp
  | succ j ih => rw [_root_.pow_succ, ih, Matrix.submatrix_mul_equiv, _root_.pow_succ]

omit [DecidableEq ι] [DecidableEq κ] in
theorem trace_submatrix (M : Matrix ι ι ℝ) (e : κ ≃ ι) : (M.submatrix e e).trace = M.trace := by
  simp only [Matrix.trace, Matrix.diag_apply, Matrix.submatrix_apply]
  exact e.sum_comp fun i => M i i

end general

/-- Interleaving of the two polarisations. -/
def ilv (n : ℕ) : Fin n ⊕ Fin n ≃ Fin (2 * n) where
  toFun := Sum.elim (fun i => ⟨2 * i.1, by have := i.2; omega⟩) fun i => ⟨2 * i.1 + 1, by have := i.2; omega⟩
  invFun j := if j.1 % 2 = 0 then .inl ⟨j.1 / 2, by have := j.2; omega⟩ else .inr ⟨j.1 / 2, by have := j.2; omega⟩
  left_inv := by
    rintro (i | i)
    · simp
    · have h2 : (2 * i.1 + 1) / 2 = i.1 := by omega
      simp [h2]
  right_inv := by
    intro j
    by_cases h : j.1 % 2 = 0
    · simp only [h, if_true, Sum.elim_inl]
      ext; simp only; omega
    · simp only [h, if_false, Sum.elim_inr]
      ext; simp only; omega

@[simp] theorem ilv_inl {n : ℕ} (i : Fin n) : (ilv n (.inl i)).1 = 2 * i.1 := rfl
@[simp] theorem ilv_inr {n : ℕ} (i : Fin n) : (ilv n (.inr i)).1 = 2 * i.1 + 1 := rfl

variable {n p : ℕ}

theorem sign_cancel {e : ℝ} (he : e * e = 1) (a f b : ℝ) : e * a * (e * f * b) = a * f * b := by
  linear_combination (a * f * b) * he

theorem term_cancel {ε es : ℝ} (hε : ε * ε = 1) (hes : es * es = 1) (σa σb ei ej a b f f' : ℝ) :
    σa * ei * (a * a) * (ε * f) * (σb * es * (b * b)) * (ej * es * (ε * f')) =
      ei * a * (σa * (a * f * b * σb * (ej * f' * b))) := by
  have : σa * ei * (a * a) * (ε * f) * (σb * es * (b * b)) * (ej * es * (ε * f')) =
      ei * a * (σa * (a * f * b * σb * (ej * f' * b))) * ((ε * ε) * (es * es)) := by ring
  rw [this, hε, hes]; ring

/-- A function of polarisation and degree as a function of the interleaved index. -/
def pick (α : Bool → ℕ → ℝ) (c0 i : ℕ) : ℝ := α i.bodd (c0 + i.div2)

/-- A kernel between interleaved indices: amplitudes `A`, `B` and translation coefficients `f`. -/
noncomputable def kernOf (f : Bool → Bool → ℕ → ℕ → ℝ) (c0 : ℕ) (A B : Bool → ℕ → ℝ) (i s : ℕ) : ℝ :=
  Real.sqrt (A i.bodd (c0 + i.div2)) * f i.bodd s.bodd (c0 + i.div2) (c0 + s.div2) * Real.sqrt (B s.bodd (c0 + s.div2))

theorem roundTrip_mix_of {c0 : ℕ} {ε : ℝ} (hm : ε * ε = 1) {f : Bool → Bool → ℕ → ℕ → ℝ}
    (hf : ∀ a b, f true false a b = f false true a b ∧ f true true a b = f false false a b) {α β A B : Bool → ℕ → ℝ} (hA : ∀ P c, 0 ≤ A P c) (hB : ∀ P c, 0 ≤ B P c)
    {aE aM : Fin n → ℝ} {bE bM : Fin p → ℝ} {fE fX gE gX : Matrix (Fin n) (Fin p) ℝ}
    (haE : ∀ i, aE i = α false (c0 + i.1) * (-1) ^ (c0 + 1 + i.1) * A false (c0 + i.1))
    (haM : ∀ i, aM i = -(α true (c0 + i.1) * (-1) ^ (c0 + 1 + i.1) * A true (c0 + i.1)))
    (hbE : ∀ s, bE s = β false (c0 + s.1) * (-1) ^ (c0 + 1 + s.1) * B false (c0 + s.1))
    (hbM : ∀ s, bM s = -(β true (c0 + s.1) * (-1) ^ (c0 + 1 + s.1) * B true (c0 + s.1)))
    (hfE : ∀ i s, fE i s = ε * f false false (c0 + i.1) (c0 + s.1))
    (hfX : ∀ i s, fX i s = -(ε * f false true (c0 + i.1) (c0 + s.1)))
    (hgE : ∀ i s, gE i s = (-1) ^ (c0 + 1 + i.1 + (c0 + 1 + s.1)) * fE i s)
    (hgX : ∀ i s, gX i s = -((-1) ^ (c0 + 1 + i.1 + (c0 + 1 + s.1)) * fX i s)) :
    Fac (roundTrip aE aM bE bM fE fX gE gX)
      ((mixed (pick α c0) (pick β c0) (kernOf f c0 A B) (2 * n) (2 * p)).submatrix (ilv n) (ilv n)) := by
  set K : Matrix (Fin n ⊕ Fin n) (Fin p ⊕ Fin p) ℝ := (corner (kernOf f c0 A B) (2 * n) (2 * p)).submatrix (ilv n) (ilv p) with hK
  have hd : ∀ i : ℕ, (2 * i).bodd = false ∧ (2 * i + 1).bodd = true ∧ (2 * i).div2 = i ∧ (2 * i + 1).div2 = i := by
    intro i
    refine ⟨by simp [Nat.bodd_mul], by simp [Nat.bodd_mul], ?_, ?_⟩ <;> rw [Nat.div2_val] <;> omega
  set αv : Fin n ⊕ Fin n → ℝ := Sum.elim (fun i => α false (c0 + i.1)) (fun i => α true (c0 + i.1)) with hαv
  set βv : Fin p ⊕ Fin p → ℝ := Sum.elim (fun i => β false (c0 + i.1)) (fun i => β true (c0 + i.1)) with hβv
  have e1 : (mixed (pick α c0) (pick β c0) (kernOf f c0 A B) (2 * n) (2 * p)).submatrix (ilv n) (ilv n) =
      diagonal αv * (K * diagonal βv * Kᵀ) := by
    have ea : αv = (fun i => pick α c0 (ilv n i).1) := by
      funext i; rcases i with i | i <;> simp only [hαv, Sum.elim_inl, Sum.elim_inr, pick, ilv_inl, ilv_inr, hd]
    have eb : βv = (fun i => pick β c0 (ilv p i).1) := by
      funext i; rcases i with i | i <;> simp only [hβv, Sum.elim_inl, Sum.elim_inr, pick, ilv_inl, ilv_inr, hd]
    ext i j
    rw [ea, eb, Matrix.diagonal_mul, Matrix.mul_apply, Matrix.submatrix_apply, mixed_eq, Matrix.diagonal_mul, Matrix.mul_apply]
    congr 1
    rw [← (ilv p).sum_comp]
    refine Finset.sum_congr rfl fun s _ => ?_
    rw [Matrix.mul_diagonal, Matrix.mul_diagonal]
    rfl
  rw [e1]
  clear_value K
  have hKv : (∀ i s, K (.inl i) (.inl s) = Real.sqrt (A false (c0 + i.1)) * f false false (c0 + i.1) (c0 + s.1) * Real.sqrt (B false (c0 + s.1))) ∧
      (∀ i s, K (.inl i) (.inr s) = Real.sqrt (A false (c0 + i.1)) * f false true (c0 + i.1) (c0 + s.1) * Real.sqrt (B true (c0 + s.1))) ∧
      (∀ i s, K (.inr i) (.inl s) = Real.sqrt (A true (c0 + i.1)) * f false true (c0 + i.1) (c0 + s.1) * Real.sqrt (B false (c0 + s.1))) ∧
      (∀ i s, K (.inr i) (.inr s) = Real.sqrt (A true (c0 + i.1)) * f false false (c0 + i.1) (c0 + s.1) * Real.sqrt (B true (c0 + s.1))) := by
    rw [hK]
    refine ⟨?_, ?_, ?_, ?_⟩ <;> intro i s <;>
      simp only [Matrix.submatrix_apply, corner, of_apply, kernOf, ilv_inl, ilv_inr, hd, hf]
  obtain ⟨k1, k2, k3, k4⟩ := hKv
  set dv : Fin n ⊕ Fin n → ℝ := Sum.elim (fun i => (-1) ^ (c0 + 1 + i.1) * Real.sqrt (A false (c0 + i.1)))
    (fun i => (-1) ^ (c0 + 1 + i.1) * Real.sqrt (A true (c0 + i.1))) with hdv
  set G : Matrix (Fin n ⊕ Fin n) (Fin p ⊕ Fin p) ℝ := fromBlocks
    (of fun i s => (-1) ^ (c0 + 1 + i.1) * f false false (c0 + i.1) (c0 + s.1) * Real.sqrt (B false (c0 + s.1)))
    (of fun i s => (-1) ^ (c0 + 1 + i.1) * f false true (c0 + i.1) (c0 + s.1) * Real.sqrt (B true (c0 + s.1)))
    (of fun i s => (-1) ^ (c0 + 1 + i.1) * f false true (c0 + i.1) (c0 + s.1) * Real.sqrt (B false (c0 + s.1)))
    (of fun i s => (-1) ^ (c0 + 1 + i.1) * f false false (c0 + i.1) (c0 + s.1) * Real.sqrt (B true (c0 + s.1))) with hG
  have sg : ∀ a : ℕ, ((-1 : ℝ) ^ a) * (-1) ^ a = 1 := fun a => by rw [← mul_pow]; simp
  have hGK : diagonal dv * G = K := by
    ext i s
    rw [Matrix.diagonal_mul]
    rcases i with i | i <;> rcases s with s | s <;>
      simp only [hdv, hG, Sum.elim_inl, Sum.elim_inr, fromBlocks_apply₁₁, fromBlocks_apply₁₂, fromBlocks_apply₂₁,
        fromBlocks_apply₂₂, of_apply, k1, k2, k3, k4]
    all_goals exact sign_cancel (sg _) _ _ _
  have hM : roundTrip aE aM bE bM fE fX gE gX = diagonal dv * (diagonal αv * (K * diagonal βv * Gᵀ)) := by
    ext i j
    rw [Matrix.diagonal_mul, Matrix.diagonal_mul, Matrix.mul_apply, Fintype.sum_sum_type, ← Finset.sum_add_distrib,
      Finset.mul_sum, Finset.mul_sum, roundTrip_blocks]
    simp only [Matrix.mul_diagonal]
    rcases i with i | i <;> rcases j with j | j <;>
      simp only [fromBlocks_apply₁₁, fromBlocks_apply₁₂, fromBlocks_apply₂₁, fromBlocks_apply₂₂, of_apply] <;>
      refine Finset.sum_congr rfl fun s _ => ?_ <;>
      simp only [hdv, hG, hαv, hβv, Sum.elim_inl, Sum.elim_inr, fromBlocks_apply₁₁, fromBlocks_apply₁₂, fromBlocks_apply₂₁,
        fromBlocks_apply₂₂, of_apply, k1, k2, k3, k4, Matrix.transpose_apply, haE, haM, hbE, hbM, hgE, hgX, hfE, hfX,
        pow_add (-1 : ℝ) (c0 + 1 + j.1) (c0 + 1 + s.1), neg_mul, mul_neg, neg_neg, mul_add]
    all_goals
      have hs := sg (c0 + 1 + s.1)
      have hAA := fun P c => Real.mul_self_sqrt (hA P c)
      have hBB := fun P c => Real.mul_self_sqrt (hB P c)
      have t := fun σa σb P Q f f' => term_cancel hm hs σa σb ((-1) ^ (c0 + 1 + i.1)) ((-1) ^ (c0 + 1 + j.1))
        (Real.sqrt (A P (c0 + i.1))) (Real.sqrt (B Q (c0 + s.1))) f f'
      simp only [hAA, hBB] at t
      simp only [t]
  refine ⟨dv, _, hM, ?_⟩
  rw [Matrix.mul_assoc, Matrix.mul_assoc (K * diagonal βv), show Gᵀ * diagonal dv = (diagonal dv * G)ᵀ by
    rw [Matrix.transpose_mul, Matrix.diagonal_transpose], hGK]

theorem roundTrip_mix {m c0 : ℕ} {x : ℝ} {α β A B : Bool → ℕ → ℝ} (hA : ∀ P c, 0 ≤ A P c) (hB : ∀ P c, 0 ≤ B P c)
    {aE aM : Fin n → ℝ} {bE bM : Fin p → ℝ} {fE fX gE gX : Matrix (Fin n) (Fin p) ℝ}
    (haE : ∀ i, aE i = α false (c0 + i.1) * (-1) ^ (c0 + 1 + i.1) * A false (c0 + i.1))
    (haM : ∀ i, aM i = -(α true (c0 + i.1) * (-1) ^ (c0 + 1 + i.1) * A true (c0 + i.1)))
    (hbE : ∀ s, bE s = β false (c0 + s.1) * (-1) ^ (c0 + 1 + s.1) * B false (c0 + s.1))
    (hbM : ∀ s, bM s = -(β true (c0 + s.1) * (-1) ^ (c0 + 1 + s.1) * B true (c0 + s.1)))
    (hfE : ∀ i s, fE i s = (-1) ^ m * fab m x false false (c0 + i.1) (c0 + s.1))
    (hfX : ∀ i s, fX i s = -((-1) ^ m * fab m x false true (c0 + i.1) (c0 + s.1)))
    (hgE : ∀ i s, gE i s = (-1) ^ (c0 + 1 + i.1 + (c0 + 1 + s.1)) * fE i s)
    (hgX : ∀ i s, gX i s = -((-1) ^ (c0 + 1 + i.1 + (c0 + 1 + s.1)) * fX i s)) :
    Fac (roundTrip aE aM bE bM fE fX gE gX)
      ((mixed (pick α c0) (pick β c0) (kern m x c0 A B) (2 * n) (2 * p)).submatrix (ilv n) (ilv n)) :=
  roundTrip_mix_of (f := fab m x) (ε := (-1) ^ m) (by rw [← mul_pow]; simp) (fun a b => ⟨by simp [fab], by simp [fab]⟩)
    hA hB haE haM hbE hbM hfE hfX hgE hgX

theorem roundTrip_kern {m c0 : ℕ} {x σa σb : ℝ} {A B : Bool → ℕ → ℝ} (hA : ∀ P c, 0 ≤ A P c) (hB : ∀ P c, 0 ≤ B P c)
    {aE aM : Fin n → ℝ} {bE bM : Fin p → ℝ} {fE fX gE gX : Matrix (Fin n) (Fin p) ℝ}
    (haE : ∀ i, aE i = σa * (-1) ^ (c0 + 1 + i.1) * A false (c0 + i.1))
    (haM : ∀ i, aM i = -(σa * (-1) ^ (c0 + 1 + i.1) * A true (c0 + i.1)))
    (hbE : ∀ s, bE s = σb * (-1) ^ (c0 + 1 + s.1) * B false (c0 + s.1))
    (hbM : ∀ s, bM s = -(σb * (-1) ^ (c0 + 1 + s.1) * B true (c0 + s.1)))
    (hfE : ∀ i s, fE i s = (-1) ^ m * fab m x false false (c0 + i.1) (c0 + s.1))
    (hfX : ∀ i s, fX i s = -((-1) ^ m * fab m x false true (c0 + i.1) (c0 + s.1)))
    (hgE : ∀ i s, gE i s = (-1) ^ (c0 + 1 + i.1 + (c0 + 1 + s.1)) * fE i s)
    (hgX : ∀ i s, gX i s = -((-1) ^ (c0 + 1 + i.1 + (c0 + 1 + s.1)) * fX i s)) :
    SameRoundTrip (roundTrip aE aM bE bM fE fX gE gX)
      ((gram (σa * σb) (kern m x c0 A B) (2 * n) (2 * p)).submatrix (ilv n) (ilv n)) := by
  rw [← mixed_const]
  exact Fac.same <| roundTrip_mix (α := fun _ _ => σa) (β := fun _ _ => σb) hA hB haE haM hbE hbM hfE hfX hgE hgX

end CasSph
