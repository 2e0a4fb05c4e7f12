import Verif.Lemmas.HelDecay
import Verif.Lemmas.PairGram
import Mathlib.Analysis.SpecialFunctions.Arcosh

/-! # Round trips in the basis of definite helicity -/

namespace CasSph

open Spec Matrix Polynomial

/-! ## Translation coefficients -/

/-- translation coefficients between waves of helicity `σ` -/
noncomputable def helF (m : ℕ) (x σ : ℝ) (c c' : ℕ) : ℝ := fab m x false false c c' + σ * fab m x false true c c'

/-- normalised polynomial integrand of `helF` -/
noncomputable def helPol (m : ℕ) (σ : ℝ) (c c' : ℕ) : ℝ[X] :=
  C (nV (c + 1) m * nV (c' + 1) m) * (eePol (c + 1) (c' + 1) m + C σ * emPol (c + 1) (c' + 1) m)

theorem helF_lap {x : ℝ} (hx : 0 < x) (m : ℕ) (σ : ℝ) (c c' : ℕ) : helF m x σ c c' = lap x (helPol m σ c c') := by
  unfold helF helPol fab
  rw [lap_C_mul, lap_add hx, lap_C_mul]
  simp only [if_true, Bool.false_eq_true, if_false]
  ring

theorem helPol_eval (n : ℕ) {σ : ℝ} (hσ : σ ^ 2 = 1) (c c' : ℕ) {β : ℝ} (hβ : 0 ≤ β) :
    (helPol (n + 1) σ c c').eval (Real.cosh β) = hG (c + 1) σ n β * hG (c' + 1) σ n β := by
  have e : (Real.cosh β ^ 2 - 1) ^ n = Real.sinh β ^ n * Real.sinh β ^ n := by
    rw [← mul_pow, Real.cosh_sq]; congr 1; ring
  unfold helPol
  simp only [eval_mul, eval_C, eval_add, eePol_eval_succ, emPol_eval_succ, uPol_eval, e]
  unfold hG hW
  simp only [tq_eq]
  generalize dq (c + 1) (n + 1) (Real.cosh β) = Q
  generalize dq (c' + 1) (n + 1) (Real.cosh β) = Q'
  push_cast
  linear_combination (-(nV (c + 1) (n + 1) * nV (c' + 1) (n + 1) * Real.sinh β ^ n * Real.sinh β ^ n * ((n : ℝ) + 1) ^ 2 * Q * Q')) * hσ

theorem helF_nonneg {x : ℝ} (hx : 0 < x) (n : ℕ) {σ : ℝ} (hσ : σ = 1 ∨ σ = -1) (c c' : ℕ) : 0 ≤ helF (n + 1) x σ c c' := by
  have hσ2 : σ ^ 2 = 1 := by rcases hσ with h | h <;> rw [h] <;> norm_num
  rw [helF_lap hx]
  refine lap_nonneg hx fun t ht => ?_
  have hb := Real.arcosh_nonneg ht.le
  rw [← Real.cosh_arcosh ht.le, helPol_eval n hσ2 c c' hb]
  exact mul_nonneg (hG_nonneg (by omega) hσ n hb) (hG_nonneg (by omega) hσ n hb)

theorem helF_anti {x : ℝ} (hx : 0 < x) (n : ℕ) {σ : ℝ} (hσ : σ = 1 ∨ σ = -1) (c c' : ℕ) : helF (n + 2) x σ c c' ≤ helF (n + 1) x σ c c' := by
  have hσ2 : σ ^ 2 = 1 := by rcases hσ with h | h <;> rw [h] <;> norm_num
  rw [helF_lap hx, helF_lap hx]
  refine lap_mono hx fun t ht => ?_
  have hb := Real.arcosh_nonneg ht.le
  rw [← Real.cosh_arcosh ht.le, helPol_eval n hσ2 c c' hb, helPol_eval (n + 1) hσ2 c c' hb]
  exact mul_le_mul (hG_anti (by omega) hσ n hb) (hG_anti (by omega) hσ n hb) (hG_nonneg (by omega) hσ _ hb) (hG_nonneg (by omega) hσ n hb)

/-! ## Matrices dominated by a part of another matrix -/

/-- Non-negative entries, and the entries of `X` are not larger than those of the part of `Y` with the indices `f`, `g`. -/
structure Dom {α β γ δ : Type*} (f : α → γ) (g : β → δ) (X : Matrix α β ℝ) (Y : Matrix γ δ ℝ) : Prop where
  left : ∀ a b, 0 ≤ X a b
  right : ∀ a b, 0 ≤ Y a b
  le : ∀ a b, X a b ≤ Y (f a) (g b)

section dom

variable {α β γ δ ε ζ : Type*}

theorem Dom.transpose {f : α → γ} {g : β → δ} {X : Matrix α β ℝ} {Y : Matrix γ δ ℝ} (h : Dom f g X Y) : Dom g f Xᵀ Yᵀ :=
  ⟨fun a b => h.left b a, fun a b => h.right b a, fun a b => h.le b a⟩

theorem Dom.mul [Fintype β] [Fintype δ] {f : α → γ} {g : β → δ} {k : ε → ζ} (hg : Function.Injective g) {X : Matrix α β ℝ} {Y : Matrix γ δ ℝ}
    {X' : Matrix β ε ℝ} {Y' : Matrix δ ζ ℝ} (h : Dom f g X Y) (h' : Dom g k X' Y') : Dom f k (X * X') (Y * Y') := by
  refine ⟨fun a b => ?_, fun a b => ?_, fun a b => ?_⟩
  · rw [Matrix.mul_apply]; exact Finset.sum_nonneg fun i _ => mul_nonneg (h.left a i) (h'.left i b)
  · rw [Matrix.mul_apply]; exact Finset.sum_nonneg fun i _ => mul_nonneg (h.right a i) (h'.right i b)
  · classical
    rw [Matrix.mul_apply, Matrix.mul_apply]
    calc _ ≤ ∑ i, Y (f a) (g i) * Y' (g i) (k b) := Finset.sum_le_sum fun i _ => mul_le_mul (h.le a i) (h'.le i b) (h'.left i b) (h.right _ _)
      _ = ∑ j ∈ Finset.univ.image g, Y (f a) j * Y' j (k b) := by rw [Finset.sum_image fun x _ y _ e => hg e]
      _ ≤ _ := Finset.sum_le_sum_of_subset_of_nonneg (Finset.subset_univ _) fun j _ _ => mul_nonneg (h.right _ _) (h'.right _ _)

theorem Dom.one [DecidableEq α] [DecidableEq γ] (f : α → γ) : Dom f f (1 : Matrix α α ℝ) (1 : Matrix γ γ ℝ) := by
  refine ⟨fun a b => ?_, fun a b => ?_, fun a b => ?_⟩
  · rw [Matrix.one_apply]; split_ifs <;> norm_num
  · rw [Matrix.one_apply]; split_ifs <;> norm_num
  · rw [Matrix.one_apply, Matrix.one_apply]
    by_cases h : a = b
    · rw [if_pos h, if_pos (congrArg f h)]
    · rw [if_neg h]; split_ifs <;> norm_num

theorem Dom.pow [Fintype α] [DecidableEq α] [Fintype γ] [DecidableEq γ] {f : α → γ} (hf : Function.Injective f) {X : Matrix α α ℝ} {Y : Matrix γ γ ℝ}
    (h : Dom f f X Y) : ∀ j, Dom f f (X ^ j) (Y ^ j)
  | 0 => by rw [pow_zero, pow_zero]; exact Dom.one f
  | j + 1 => by rw [_root_.pow_succ, _root_.pow_succ]; exact (Dom.pow hf h j).mul hf h

theorem Dom.trace [Fintype α] [Fintype γ] {f : α → γ} (hf : Function.Injective f) {X : Matrix α α ℝ} {Y : Matrix γ γ ℝ} (h : Dom f f X Y) :
    X.trace ≤ Y.trace := by
  classical
  simp only [Matrix.trace, Matrix.diag_apply]
  calc _ ≤ ∑ i, Y (f i) (f i) := Finset.sum_le_sum fun i _ => h.le i i
    _ = ∑ j ∈ Finset.univ.image f, Y j j := by rw [Finset.sum_image fun x _ y _ e => hf e]
    _ ≤ _ := Finset.sum_le_sum_of_subset_of_nonneg (Finset.subset_univ _) fun j _ _ => h.right _ _

end dom

/-! ## Rotation -/

/-- `TM ± TE` -/
noncomputable def helA (A : Bool → ℕ → ℝ) (c0 n : ℕ) : Matrix (Fin n ⊕ Fin n) (Fin n ⊕ Fin n) ℝ :=
  (1 / 2 : ℝ) • fromBlocks (diagonal fun i => A true (c0 + i.1) + A false (c0 + i.1)) (diagonal fun i => A true (c0 + i.1) - A false (c0 + i.1))
    (diagonal fun i => A true (c0 + i.1) - A false (c0 + i.1)) (diagonal fun i => A true (c0 + i.1) + A false (c0 + i.1))

/-- translation of both helicities -/
noncomputable def helT (m : ℕ) (x : ℝ) (c0 n p : ℕ) : Matrix (Fin n ⊕ Fin n) (Fin p ⊕ Fin p) ℝ :=
  fromBlocks (of fun i s => helF m x 1 (c0 + i.1) (c0 + s.1)) 0 0 (of fun i s => helF m x (-1) (c0 + i.1) (c0 + s.1))

/-- rotation from polarisations to helicities -/
noncomputable def helU (n : ℕ) : Matrix (Fin n ⊕ Fin n) (Fin n ⊕ Fin n) ℝ := (Real.sqrt 2)⁻¹ • fromBlocks 1 1 (-1) 1

theorem half_sqrt : (Real.sqrt 2)⁻¹ * (Real.sqrt 2)⁻¹ = 1 / 2 := by
  rw [← mul_inv, Real.mul_self_sqrt (by norm_num)]; norm_num

theorem helU_transpose (n : ℕ) : (helU n)ᵀ = (Real.sqrt 2)⁻¹ • fromBlocks 1 (-1) 1 1 := by
  unfold helU
  rw [Matrix.transpose_smul, Matrix.fromBlocks_transpose]
  simp

theorem helU_left (n : ℕ) : (helU n)ᵀ * helU n = 1 := by
  rw [helU_transpose]
  unfold helU
  rw [Matrix.smul_mul, Matrix.mul_smul, smul_smul, half_sqrt, Matrix.fromBlocks_multiply, ← Matrix.fromBlocks_one, Matrix.fromBlocks_smul]
  congr 1 <;> ext i j <;> simp [Matrix.one_apply] <;> split_ifs <;> norm_num

theorem helU_right (n : ℕ) : helU n * (helU n)ᵀ = 1 := mul_eq_one_comm.mp (helU_left n)

theorem helU_diag (A : Bool → ℕ → ℝ) (c0 n : ℕ) :
    helU n * diagonal (Sum.elim (fun i : Fin n => A false (c0 + i.1)) fun i : Fin n => A true (c0 + i.1)) * (helU n)ᵀ = helA A c0 n := by
  rw [helU_transpose]
  unfold helU helA
  rw [Matrix.smul_mul, Matrix.smul_mul, Matrix.mul_smul, smul_smul, half_sqrt, ← Matrix.fromBlocks_diagonal, Matrix.fromBlocks_multiply,
    Matrix.fromBlocks_multiply]
  congr 2 <;> ext i j <;> simp [Matrix.diagonal_apply] <;> split_ifs <;> ring

theorem helU_trans (m : ℕ) (x : ℝ) (c0 n p : ℕ) :
    helU n * fromBlocks (of fun (i : Fin n) (s : Fin p) => fab m x false false (c0 + i.1) (c0 + s.1)) (of fun i s => fab m x false true (c0 + i.1) (c0 + s.1))
      (of fun i s => fab m x false true (c0 + i.1) (c0 + s.1)) (of fun i s => fab m x false false (c0 + i.1) (c0 + s.1)) * (helU p)ᵀ = helT m x c0 n p := by
  rw [helU_transpose]
  unfold helU helT helF
  rw [Matrix.smul_mul, Matrix.smul_mul, Matrix.mul_smul, smul_smul, half_sqrt, Matrix.fromBlocks_multiply, Matrix.fromBlocks_multiply, Matrix.fromBlocks_smul]
  congr 1 <;> ext i j <;> simp <;> ring

/-- Traces of powers of round trips in the basis of helicities. -/
theorem gram_hel (m : ℕ) (x : ℝ) (c0 : ℕ) {A B : Bool → ℕ → ℝ} (hA : ∀ P c, 0 ≤ A P c) (hB : ∀ P c, 0 ≤ B P c) (n p j : ℕ) :
    (gram 1 (kern m x c0 A B) (2 * n) (2 * p) ^ j).trace = ((helA A c0 n * helT m x c0 n p * helA B c0 p * (helT m x c0 n p)ᵀ) ^ j).trace := by
  have hd : ∀ i : ℕ, (2 * i).bodd = false ∧ (2 * i + 1).bodd = true ∧ (2 * i).div2 = i ∧ (2 * i + 1).div2 = i := by
    intro i
    refine ⟨by simp [Nat.bodd_mul], by simp [Nat.bodd_mul], ?_, ?_⟩ <;> rw [Nat.div2_val] <;> omega
  have hf : ∀ a b, fab m x true false a b = fab m x false true a b ∧ fab m x true true a b = fab m x false false a b := by
    intro a b; unfold fab; simp
  rw [← helU_diag A, ← helU_diag B, ← helU_trans]
  set F : Matrix (Fin n ⊕ Fin n) (Fin p ⊕ Fin p) ℝ := fromBlocks (of fun i s => fab m x false false (c0 + i.1) (c0 + s.1))
    (of fun i s => fab m x false true (c0 + i.1) (c0 + s.1))
    (of fun i s => fab m x false true (c0 + i.1) (c0 + s.1)) (of fun i s => fab m x false false (c0 + i.1) (c0 + s.1)) with hF
  set a : Fin n ⊕ Fin n → ℝ := Sum.elim (fun i => A false (c0 + i.1)) fun i => A true (c0 + i.1) with ha
  set b : Fin p ⊕ Fin p → ℝ := Sum.elim (fun i => B false (c0 + i.1)) fun i => B true (c0 + i.1) with hb
  have a0 : ∀ i, 0 ≤ a i := by rintro (i | i) <;> exact hA _ _
  have b0 : ∀ i, 0 ≤ b i := by rintro (i | i) <;> exact hB _ _
  have e1 : (gram 1 (kern m x c0 A B) (2 * n) (2 * p)).submatrix (ilv n) (ilv n) =
      diagonal (fun i => Real.sqrt (a i)) * (F * diagonal b * Fᵀ * diagonal fun i => Real.sqrt (a i)) := by
    have hK : (corner (kern m x c0 A B) (2 * n) (2 * p)).submatrix (ilv n) (ilv p) =
        diagonal (fun i => Real.sqrt (a i)) * F * diagonal fun i => Real.sqrt (b i) := by
      ext i s
      rw [Matrix.mul_diagonal, Matrix.diagonal_mul]
      rcases i with i | i <;> rcases s with s | s <;>
        simp only [Matrix.submatrix_apply, corner, of_apply, kern, ilv_inl, ilv_inr, hd, hf, ha, hb, hF, Sum.elim_inl, Sum.elim_inr,
          fromBlocks_apply₁₁, fromBlocks_apply₁₂, fromBlocks_apply₂₁, fromBlocks_apply₂₂]
    have hbb : diagonal (fun i => Real.sqrt (b i)) * diagonal (fun i => Real.sqrt (b i)) = diagonal b := by
      rw [Matrix.diagonal_mul_diagonal]
      congr 1
      funext i
      exact Real.mul_self_sqrt (b0 i)
    have e2 : (gram 1 (kern m x c0 A B) (2 * n) (2 * p)).submatrix (ilv n) (ilv n) =
        (corner (kern m x c0 A B) (2 * n) (2 * p)).submatrix (ilv n) (ilv p) * ((corner (kern m x c0 A B) (2 * n) (2 * p)).submatrix (ilv n) (ilv p))ᵀ := by
      unfold gram
      rw [one_smul, Matrix.transpose_submatrix, Matrix.submatrix_mul_equiv]
    rw [e2, hK, Matrix.transpose_mul, Matrix.transpose_mul, Matrix.diagonal_transpose, Matrix.diagonal_transpose, ← hbb]
    simp only [Matrix.mul_assoc]
  have haa : diagonal (fun i => Real.sqrt (a i)) * diagonal (fun i => Real.sqrt (a i)) = diagonal a := by
    rw [Matrix.diagonal_mul_diagonal]
    congr 1
    funext i
    exact Real.mul_self_sqrt (a0 i)
  rw [← trace_submatrix _ (ilv n), ← submatrix_pow, e1, (sameRoundTrip_comm _ _).2, Matrix.mul_assoc _ (diagonal _) (diagonal _), haa, (sameRoundTrip_comm _ _).2]
  have e3 : helU n * diagonal a * (helU n)ᵀ * (helU n * F * (helU p)ᵀ) * (helU p * diagonal b * (helU p)ᵀ) * (helU n * F * (helU p)ᵀ)ᵀ =
      helU n * (diagonal a * (F * diagonal b * Fᵀ) * (helU n)ᵀ) := by
    rw [Matrix.transpose_mul, Matrix.transpose_mul, Matrix.transpose_transpose]
    calc _ = helU n * diagonal a * ((helU n)ᵀ * helU n) * F * ((helU p)ᵀ * helU p) * diagonal b * ((helU p)ᵀ * helU p) * Fᵀ * (helU n)ᵀ := by
          simp only [Matrix.mul_assoc]
      _ = _ := by rw [helU_left, helU_left]; simp only [Matrix.mul_assoc, Matrix.mul_one]
  rw [e3, (sameRoundTrip_comm (helU n) _).2, Matrix.mul_assoc _ (helU n)ᵀ (helU n), helU_left, Matrix.mul_one]

/-! ## Comparison of neighbouring orders -/

theorem smap_succ_inj (n : ℕ) : Function.Injective (Sum.map (Fin.succ (n := n)) (Fin.succ (n := n))) :=
  Sum.map_injective.mpr ⟨Fin.succ_injective n, Fin.succ_injective n⟩

theorem helA_dom {A : Bool → ℕ → ℝ} (h0 : ∀ c, 0 ≤ A false c) (h1 : ∀ c, A false c ≤ A true c) (k n : ℕ) :
    Dom (Sum.map Fin.succ Fin.succ) (Sum.map Fin.succ Fin.succ) (helA A (k + 1) n) (helA A k (n + 1)) := by
  have q : ∀ c, 0 ≤ A true c + A false c ∧ 0 ≤ A true c - A false c := fun c => ⟨by have := h0 c; have := h1 c; linarith, by linarith [h1 c]⟩
  have nn : ∀ k n a b, 0 ≤ helA A k n a b := by
    intro k n a b
    unfold helA
    rw [Matrix.smul_apply, smul_eq_mul]
    refine mul_nonneg (by norm_num) ?_
    rcases a with i | i <;> rcases b with j | j <;>
      simp only [fromBlocks_apply₁₁, fromBlocks_apply₁₂, fromBlocks_apply₂₁, fromBlocks_apply₂₂, diagonal_apply] <;> split_ifs <;>
      first | exact (q _).1 | exact (q _).2 | exact le_rfl
  refine ⟨nn _ _, nn _ _, fun a b => le_of_eq ?_⟩
  unfold helA
  rw [Matrix.smul_apply, Matrix.smul_apply]
  congr 1
  have e : ∀ i : Fin n, k + (i.1 + 1) = k + 1 + i.1 := fun i => by omega
  rcases a with i | i <;> rcases b with j | j <;>
    simp only [fromBlocks_apply₁₁, fromBlocks_apply₁₂, fromBlocks_apply₂₁, fromBlocks_apply₂₂, diagonal_apply, Sum.map_inl, Sum.map_inr, Fin.val_succ, e,
      Fin.succ_inj]

theorem helT_dom {x : ℝ} (hx : 0 < x) (k n p : ℕ) :
    Dom (Sum.map Fin.succ Fin.succ) (Sum.map Fin.succ Fin.succ) (helT (k + 2) x (k + 1) n p) (helT (k + 1) x k (n + 1) (p + 1)) := by
  have nn : ∀ j c0 n p a b, 0 ≤ helT (j + 1) x c0 n p a b := by
    intro j c0 n p a b
    unfold helT
    rcases a with i | i <;> rcases b with s | s <;>
      simp only [fromBlocks_apply₁₁, fromBlocks_apply₁₂, fromBlocks_apply₂₁, fromBlocks_apply₂₂, of_apply, Matrix.zero_apply]
    · exact helF_nonneg hx j (.inl rfl) _ _
    · exact le_rfl
    · exact le_rfl
    · exact helF_nonneg hx j (.inr rfl) _ _
  refine ⟨nn _ _ _ _, nn _ _ _ _, fun a b => ?_⟩
  unfold helT
  have e : ∀ {n : ℕ} (i : Fin n), k + (i.1 + 1) = k + 1 + i.1 := fun i => by omega
  rcases a with i | i <;> rcases b with s | s <;>
    simp only [fromBlocks_apply₁₁, fromBlocks_apply₁₂, fromBlocks_apply₂₁, fromBlocks_apply₂₂, of_apply, Matrix.zero_apply, Sum.map_inl, Sum.map_inr,
      Fin.val_succ, e]
  · exact helF_anti hx k (.inl rfl) _ _
  · exact le_rfl
  · exact le_rfl
  · exact helF_anti hx k (.inr rfl) _ _

/-- If all traces of powers are not larger, the logarithm of the determinant is not smaller. -/
theorem HSContr.le_of_trace {H H' : ℕ → ℕ → ℝ} {θ θ' T T' : ℝ} (h : HSContr H θ T) (h' : HSContr H' θ' T') {n p n' p' : ℕ}
    (hle : ∀ j, (gram 1 H' n' p' ^ j).trace ≤ (gram 1 H n p ^ j).trace) :
    -Real.log (1 - gram 1 H' n' p').det ≤ -Real.log (1 - gram 1 H n p).det := by
  have l1 := traceSum_tendsto (h.spectrum (.inl rfl) n p)
  have l2 := traceSum_tendsto (h'.spectrum (.inl rfl) n' p')
  rw [abs_of_pos (h.pos (.inl rfl) n p).1] at l1
  rw [abs_of_pos (h'.pos (.inl rfl) n' p').1] at l2
  refine le_of_tendsto_of_tendsto' l2 l1 fun K => ?_
  unfold traceSum
  exact Finset.sum_le_sum fun j _ => div_le_div_of_nonneg_right (hle j) (Nat.cast_nonneg j)

/-- The contribution of the order `k + 2` is not larger than that of the order `k + 1`, if the spheres reflect TM at least as strongly as TE. -/
theorem kern_m_step {x : ℝ} (hx : 0 < x) (k : ℕ) {A B : Bool → ℕ → ℝ} (a0 : ∀ P c, 0 ≤ A P c) (a1 : ∀ c, A false c ≤ A true c) (b0 : ∀ P c, 0 ≤ B P c)
    (b1 : ∀ c, B false c ≤ B true c) {θ θ' T T' : ℝ} (g : HSContr (kern (k + 1) x k A B) θ T) (g' : HSContr (kern (k + 2) x (k + 1) A B) θ' T') (n p : ℕ) :
    -Real.log (1 - gram 1 (kern (k + 2) x (k + 1) A B) (2 * n) (2 * p)).det ≤
      -Real.log (1 - gram 1 (kern (k + 1) x k A B) (2 * (n + 1)) (2 * (p + 1))).det := by
  refine g.le_of_trace g' fun j => ?_
  rw [gram_hel _ _ _ a0 b0, gram_hel _ _ _ a0 b0]
  have hT := helT_dom hx k n p
  have h := (((helA_dom (fun c => a0 false c) a1 k n).mul (smap_succ_inj n) hT).mul (smap_succ_inj p) (helA_dom (fun c => b0 false c) b1 k p)).mul
    (smap_succ_inj p) hT.transpose
  exact (h.pow (smap_succ_inj n) j).trace (smap_succ_inj n)

end CasSph
