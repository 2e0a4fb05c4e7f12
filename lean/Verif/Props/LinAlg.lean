import Verif.Model.LinAlg
import Verif.Spec.LinAlg
import Verif.Lemmas.LinAlg
import Verif.Lemmas.Jacobi
import Mathlib.LinearAlgebra.Matrix.Notation
import Mathlib.LinearAlgebra.Matrix.Determinant.Basic
import Mathlib.Tactic.FinCases

/-! # Properties C01–C09: balancing and block linear algebra -/

namespace CasSph

open scoped Classical
open Spec

/-! ## C01 -/

/-- **C01.** Whatever `balance` returns is a power-of-two diagonal similarity of its argument, and
has the same determinant, trace and characteristic polynomial. -/
theorem C01_balance_similarity {n fuel : ℕ} {conv : ℝ} {M B : Matrix (Fin n) (Fin n) ℝ}
    (h : balance fuel conv M = some B) :
    (∃ d : Fin n → ℤ, B = Matrix.diagonal (fun i => ((2 : ℝ) ^ d i)⁻¹) * M *
      Matrix.diagonal (fun i => (2 : ℝ) ^ d i)) ∧
    B.det = M.det ∧ B.trace = M.trace ∧ B.charpoly = M.charpoly := by
  have hs := balance_powSim h
  refine ⟨hs.eq_conj, hs.det, ?_, ?_⟩
  · obtain ⟨d, hd⟩ := hs
    unfold Matrix.trace
    refine Finset.sum_congr rfl fun i _ => ?_
    rw [Matrix.diag_apply, hd, Matrix.diag_apply, mul_div_cancel_right₀ _ (by positivity)]
  · obtain ⟨d, rfl⟩ := hs.eq_conj
    let U : (Matrix (Fin n) (Fin n) ℝ)ˣ :=
      ⟨Matrix.diagonal (fun i => ((2 : ℝ) ^ d i)⁻¹), Matrix.diagonal (fun i => (2 : ℝ) ^ d i),
        PowSim.isUnit_diag d, mul_eq_one_comm.1 (PowSim.isUnit_diag d)⟩
    have := Matrix.charpoly_units_conj U M
    rw [← Matrix.coe_units_inv] at this
    exact this

/-! ## C02 -/

/-- **C02.** For `conv < 1` every call of `balance` returns. -/
theorem C02_balance_terminates {n : ℕ} {conv : ℝ} (hconv : conv < 1)
    (M : Matrix (Fin n) (Fin n) ℝ) :
    ∃ N, ∀ fuel, N < fuel → ∃ B, balance fuel conv M = some B :=
  balance_total hconv M

/-- The `conv` values used by the library and as default meet the hypothesis. -/
example : ((9 : ℝ) / 10 < 1) ∧ ((95 : ℝ) / 100 < 1) := by norm_num

/-! ## C03 -/

theorem rowSq_eq {n : ℕ} (M : Matrix (Fin n) (Fin n) ℝ) (i : Fin n) : rowSq M i = offRow M i := by
  unfold rowSq offRow
  rw [← Finset.add_sum_erase _ _ (Finset.mem_univ i), if_pos rfl, zero_add]
  refine Finset.sum_congr rfl fun j hj => ?_
  rw [if_neg (Finset.ne_of_mem_erase hj), sq_abs]

theorem colSq_eq {n : ℕ} (M : Matrix (Fin n) (Fin n) ℝ) (i : Fin n) : colSq M i = offCol M i := by
  unfold colSq offCol
  rw [← Finset.add_sum_erase _ _ (Finset.mem_univ i), if_pos rfl, zero_add]
  refine Finset.sum_congr rfl fun j hj => ?_
  rw [if_neg (Finset.ne_of_mem_erase hj), sq_abs]

/-- **C03.** On return, at every index whose off-diagonal row and column do not underflow
(squared norms above `1e-320`), row norm `r` and column norm `c` satisfy
`c² + r² ≤ 5/(2·conv) · c·r`. -/
theorem C03_balance_balanced {n fuel : ℕ} {conv : ℝ} (hconv : 0 < conv)
    {M B : Matrix (Fin n) (Fin n) ℝ} (h : balance fuel conv M = some B) (i : Fin n)
    (hr : 1 / 10 ^ 320 < offRow B i) (hc : 1 / 10 ^ 320 < offCol B i) :
    offCol B i + offRow B i ≤
      5 / (2 * conv) * (Real.sqrt (offCol B i) * Real.sqrt (offRow B i)) := by
  rw [← rowSq_eq] at hr ⊢
  rw [← colSq_eq] at hc ⊢
  rcases balanceIndex_spec (balance_exit h i) with ⟨hg, _⟩ | ⟨_, _, d, hlo, hhi, hh⟩
  · exact absurd hg (by push Not; exact ⟨hr, hc⟩)
  · rcases hh with ⟨_, hh⟩ | ⟨hge, _⟩
    · simp at hh
    · simp only at hge hlo hhi
      set f : ℝ := 2 ^ d with hf
      have hfpos : 0 < f := by rw [hf]; positivity
      set c := Real.sqrt (colSq B i)
      set r := Real.sqrt (rowSq B i)
      have hcr : c * f * (r / f) = c * r := by field_simp
      set x := c * f
      set y := r / f
      -- (2y - x)(2x - y) ≥ 0 gives x² + y² ≤ 5/2 x y
      have key : x ^ 2 + y ^ 2 ≤ 5 / 2 * (x * y) := by
        nlinarith [mul_nonneg (sub_nonneg.2 hhi.le) (sub_nonneg.2 hlo)]
      rw [hcr] at key
      have : conv * (colSq B i + rowSq B i) ≤ 5 / 2 * (c * r) := hge.trans key
      rw [show 5 / (2 * conv) * (c * r) = (5 / 2 * (c * r)) / conv by field_simp,
        le_div_iff₀ hconv]
      linarith

theorem tiny_lt_one : (1 : ℝ) / 10 ^ 320 < 1 := by
  rw [div_lt_one (by positivity)]
  exact one_lt_pow₀ (by norm_num) (by norm_num)

/-- Non-trivial instance of C01–C03: a badly scaled matrix is really changed. -/
example : ∃ (fuel : ℕ) (B : Matrix (Fin 2) (Fin 2) ℝ),
    balance fuel (9 / 10) !![1, 100; 1, 1] = some B ∧ B ≠ !![1, 100; 1, 1] := by
  obtain ⟨N, hN⟩ := C02_balance_terminates (conv := 9 / 10) (by norm_num)
    (!![1, 100; 1, 1] : Matrix (Fin 2) (Fin 2) ℝ)
  obtain ⟨B, hB⟩ := hN (N + 1) (by omega)
  refine ⟨_, B, hB, ?_⟩
  rintro rfl
  have e0 : (Finset.univ.erase (0 : Fin 2)) = {1} := by decide
  have hR : offRow (!![1, 100; 1, 1] : Matrix (Fin 2) (Fin 2) ℝ) 0 = 100 ^ 2 := by
    simp [offRow, e0]
  have hC : offCol (!![1, 100; 1, 1] : Matrix (Fin 2) (Fin 2) ℝ) 0 = 1 ^ 2 := by
    simp [offCol, e0]
  have := C03_balance_balanced (by norm_num) hB 0 (by rw [hR]; linarith [tiny_lt_one])
    (by rw [hC]; linarith [tiny_lt_one])
  rw [hR, hC, Real.sqrt_sq (by norm_num), Real.sqrt_sq (by norm_num)] at this
  norm_num at this

/-! ## C04 -/

/-- The two-dimensional swap matrix. -/
def swap2 : Matrix (Fin 2) (Fin 2) ℝ := !![0, 1; 1, 0]

theorem balanceIndex_swap {fuel : ℕ} {conv : ℝ} (hconv : 1 < conv) (b : Bool) (i : Fin 2) :
    balanceIndex fuel conv (swap2, b) i = none ∨
      balanceIndex fuel conv (swap2, b) i = some (swap2, false) := by
  have hR : rowSq swap2 i = 1 := by fin_cases i <;> simp [rowSq, swap2]
  have hC : colSq swap2 i = 1 := by fin_cases i <;> simp [colSq, swap2]
  have htiny : balanceTiny < 1 := tiny_lt_one
  unfold balanceIndex
  simp only [hR, hC, abs_one, Real.sqrt_one, or_self, if_neg (not_le.2 htiny)]
  cases fuel with
  | zero => left; simp [growLoop, whileLoop]
  | succ n =>
    right
    have h1 : growLoop (n + 1) ⟨1, 1, 1⟩ = some ⟨1, 1, 1⟩ := by
      unfold growLoop whileLoop; rw [if_neg (by norm_num)]
    have h2 : shrinkLoop (n + 1) ⟨1, 1, 1⟩ = some ⟨1, 1, 1⟩ := by
      unfold shrinkLoop whileLoop; rw [if_neg (by norm_num)]
    rw [h1]; simp only [Option.bind_some]; rw [h2]; simp only [Option.bind_some]
    rw [if_pos (by linarith)]
    have : scaleIndex swap2 i 1 = swap2 := by
      ext j k; rw [scaleIndex_apply]; split_ifs <;> simp
    rw [this]

/-- **C04.** For every `conv > 1` the call `balance([[0,1],[1,0]], conv)` never returns. -/
theorem C04_balance_diverges {conv : ℝ} (hconv : 1 < conv) (fuel : ℕ) :
    balance fuel conv swap2 = none := by
  have hsweep : ∀ f, balanceSweep f conv swap2 = none ∨
      balanceSweep f conv swap2 = some (swap2, false) := by
    intro f
    unfold balanceSweep
    have : List.finRange 2 = [0, 1] := by decide
    rw [this]
    show (balanceIndex f conv (swap2, true) 0).bind
      (fun s => (balanceIndex f conv s 1).bind some) = none ∨
      (balanceIndex f conv (swap2, true) 0).bind
      (fun s => (balanceIndex f conv s 1).bind some) = some (swap2, false)
    rcases balanceIndex_swap (fuel := f) hconv true 0 with h | h
    · left; rw [h]; rfl
    · rw [h, Option.bind_some]
      rcases balanceIndex_swap (fuel := f) hconv false 1 with h | h
      · left; rw [h]; rfl
      · right; rw [h]; rfl
  have : ∀ k, whileLoop (fun s : Matrix (Fin 2) (Fin 2) ℝ × Bool => s.2 = false)
    (fun s => balanceSweep fuel conv s.1) k (swap2, false) = none := by
    intro k
    induction k with
    | zero => rfl
    | succ k ih =>
      unfold whileLoop
      rw [if_pos rfl]
      rcases hsweep fuel with h | h
      · rw [h]; rfl
      · rw [h]; exact ih
  unfold balance
  rw [this]; rfl

example : (1 : ℝ) < 105 / 100 := by norm_num

/-! ## C05 -/

theorem slogdet1_eq {n : ℕ} (M : Matrix (Fin n) (Fin n) ℝ) : slogdet1 M = lnAbs M.det := rfl

/-- **C05 (i).** `balanced_slogdet(M)[i] = ln|det(1 - M[i])|`; the call returns. -/
theorem C05_balanced_slogdet {A : NdArr} {d0 n : ℕ} (hA : A.shape = [d0, n, n]) (h0 : 0 < d0)
    {conv : ℝ} (hconv : conv < 1) :
    ∃ N, ∀ fuel, N < fuel → balancedSlogdet fuel conv A =
      some (.ok ((List.range d0).map fun i => lnAbs (1 - A.slice n n i).det)) := by
  obtain ⟨N, hN⟩ := exists_common_fuel (P := fun i fuel =>
    slogdetBalanced fuel conv (A.slice n n i) = some (slogdet1 (1 - A.slice n n i))) d0
    (fun i _ => slogdetBalanced_total hconv _)
  refine ⟨N, fun fuel hf => ?_⟩
  unfold balancedSlogdet
  rw [hA]
  simp only [ne_eq, not_true_eq_false, if_false]
  rw [if_neg (by omega), mapM_some (g := fun i => slogdet1 (1 - A.slice n n i))
    (fun i hi => hN fuel hf i (List.mem_range.1 hi))]
  rfl

/-- **C05 (i'), partial correctness for every `conv`:** any value returned is the log-determinant. -/
theorem C05_balanced_slogdet_any {A : NdArr} {d0 n : ℕ} (hA : A.shape = [d0, n, n])
    {conv : ℝ} {fuel : ℕ} {L : List EReal} (h : balancedSlogdet fuel conv A = some (.ok L)) :
    L = (List.range d0).map fun i => lnAbs (1 - A.slice n n i).det := by
  unfold balancedSlogdet at h
  rw [hA] at h
  simp only [ne_eq, not_true_eq_false, if_false] at h
  split_ifs at h with h0
  · simp at h
  · rw [Option.map_eq_some_iff] at h
    obtain ⟨r, hr, he⟩ := h
    have := mapM_inv (g := fun i => slogdet1 (1 - A.slice n n i))
      (fun i b hb => slogdetBalanced_eq hb) hr
    cases he
    exact this

/-- **C05 (ii).** `sln_det_3d(A,B,C,D)[i] = ln|det(1 - [[A,B],[C,D]][i])|`. -/
theorem C05_sln_det_3d {A B C D : NdArr} {d0 n : ℕ} (hA : A.shape = [d0, n, n])
    (hB : B.shape = [d0, n, n]) (hC : C.shape = [d0, n, n]) (hD : D.shape = [d0, n, n])
    {conv : ℝ} (hconv : conv < 1) :
    ∃ N, ∀ fuel, N < fuel → slnDet3d fuel conv A B C D =
      some (.ok ((List.range d0).map fun i => lnAbs (1 - Matrix.fromBlocks
        (A.slice n n i) (B.slice n n i) (C.slice n n i) (D.slice n n i)).det)) := by
  obtain ⟨M, hM, hMs, hMv⟩ := matrixAppend_ok hA hB hC hD
  obtain ⟨N, hN⟩ := exists_common_fuel (P := fun i fuel =>
    slogdetBalanced fuel conv (M.slice (n + n) (n + n) i) =
      some (slogdet1 (1 - M.slice (n + n) (n + n) i))) d0
    (fun i _ => slogdetBalanced_total hconv _)
  refine ⟨N, fun fuel hf => ?_⟩
  unfold slnDet3d
  rw [if_neg (by rw [hA, hB, hC, hD]; simp), hM]
  simp only
  rw [hMs]
  simp only [ne_eq, not_true_eq_false, if_false]
  rw [mapM_some (g := fun i => slogdet1 (1 - M.slice (n + n) (n + n) i))
    (fun i hi => hN fuel hf i (List.mem_range.1 hi))]
  simp only [Option.map_some]
  congr 2
  refine List.map_congr_left fun i _ => ?_
  rw [slogdet1_eq, det_one_sub_slice i (matrixAppend_slice i hMv)]

/-- **C05 (iii).** Unequal shapes are rejected with `ValueError`. -/
theorem C05_shape_error {A B C D : NdArr} (fuel : ℕ) (conv : ℝ)
    (h : ¬ (A.shape = B.shape ∧ B.shape = C.shape ∧ C.shape = D.shape)) :
    slnDet3d fuel conv A B C D = some (.error .valueError) := by
  unfold slnDet3d; rw [if_pos h]

/-- Concrete inputs meeting the hypotheses of C05. -/
example : ∃ A : NdArr, A.shape = [2, 1, 1] ∧ (1 - A.slice 1 1 1).det = 3 / 4 := by
  refine ⟨NdArr.mk3 2 1 1 fun i _ _ => (i : ℝ) / 4, rfl, ?_⟩
  simp [NdArr.slice, NdArr.mk3]; norm_num

/-! ## C06 -/

theorem lnAbs_mul (x y : ℝ) : lnAbs (x * y) = lnAbs x + lnAbs y := by
  unfold lnAbs
  by_cases hx : x = 0
  · simp [hx]
  · by_cases hy : y = 0
    · simp [hy]
    · rw [if_neg hx, if_neg hy, if_neg (mul_ne_zero hx hy), abs_mul,
        Real.log_mul (abs_ne_zero.2 hx) (abs_ne_zero.2 hy), EReal.coe_add]

theorem det_one_sub_diag {n : ℕ} (A B : Matrix (Fin n) (Fin n) ℝ) :
    (1 - Matrix.fromBlocks A 0 0 B).det = (1 - A).det * (1 - B).det := by
  rw [← Matrix.fromBlocks_one, sub_eq_add_neg, Matrix.fromBlocks_neg, Matrix.fromBlocks_add]
  simp [← sub_eq_add_neg]

/-- **C06 (i).** For sizes other than one `sln_det_blockdiagonal` is the sum of the two
log-determinants, i.e. the log-determinant of the block-diagonal matrix. -/
theorem C06_blockdiagonal {n : ℕ} (hn : n ≠ 1) (A B : Matrix (Fin n) (Fin n) ℝ)
    {conv : ℝ} (hconv : conv < 1) :
    ∃ N, ∀ fuel, N < fuel → slnDetBlockdiagonal fuel conv A B =
        some (.ok (some (lnAbs (1 - A).det + lnAbs (1 - B).det))) ∧
      lnAbs (1 - A).det + lnAbs (1 - B).det = lnAbs (1 - Matrix.fromBlocks A 0 0 B).det := by
  obtain ⟨N₁, h₁⟩ := slogdetBalanced_total hconv A
  obtain ⟨N₂, h₂⟩ := slogdetBalanced_total hconv B
  refine ⟨N₁ + N₂, fun fuel hf => ⟨?_, ?_⟩⟩
  · unfold slnDetBlockdiagonal
    rw [if_neg (by simp), dif_neg (by simp [hn]), h₁ fuel (by omega), h₂ fuel (by omega)]
    simp only [Option.bind_some, Option.map_some, slogdet1_eq]
    rw [add_comm]
  · rw [det_one_sub_diag, lnAbs_mul]

/-- **C06 (ii).** The `1 × 1` special case gives the same value exactly when
`(1-A)(1-B) ≥ 0`, and NaN otherwise. -/
theorem C06_blockdiagonal_one (A B : Matrix (Fin 1) (Fin 1) ℝ) (conv : ℝ) (fuel : ℕ) :
    (0 ≤ (1 - A 0 0) * (1 - B 0 0) → slnDetBlockdiagonal fuel conv A B =
        some (.ok (some (lnAbs (1 - A).det + lnAbs (1 - B).det)))) ∧
    ((1 - A 0 0) * (1 - B 0 0) < 0 → slnDetBlockdiagonal fuel conv A B = some (.ok none)) := by
  have hdet : ∀ X : Matrix (Fin 1) (Fin 1) ℝ, (1 - X).det = 1 - X 0 0 := by
    intro X; simp
  have hval : slnDetBlockdiagonal fuel conv A B =
      some (.ok (npLog ((1 - A 0 0) * (1 - B 0 0)))) := by
    unfold slnDetBlockdiagonal; simp
  constructor
  · intro h
    rw [hval, hdet, hdet, ← lnAbs_mul]
    unfold npLog lnAbs
    rw [if_neg (not_lt.2 h), abs_of_nonneg h]
    split_ifs <;> rfl
  · intro h
    rw [hval]; unfold npLog; rw [if_pos h]

/-- **C06 (iii).** Different sizes raise `ValueError`. -/
theorem C06_shape_error {n m : ℕ} (h : n ≠ m) (A : Matrix (Fin n) (Fin n) ℝ)
    (B : Matrix (Fin m) (Fin m) ℝ) (conv : ℝ) (fuel : ℕ) :
    slnDetBlockdiagonal fuel conv A B = some (.error .valueError) := by
  unfold slnDetBlockdiagonal; rw [if_pos h]

/-- A `1 × 1` case in which the special case is NaN although the log-determinant exists. -/
example : (1 - (!![3] : Matrix (Fin 1) (Fin 1) ℝ) 0 0) * (1 - (!![0] : Matrix (Fin 1) (Fin 1) ℝ) 0 0)
    < 0 := by norm_num

/-! ## C07 -/

theorem blk_ul (A : NdArr) (n i : ℕ) : blk A n i 0 0 = ul (A.slice (n + n) (n + n) i) := by
  ext a b; simp [blk, ul, NdArr.slice]

theorem schurOf_eq (A : NdArr) (n i : ℕ) : schurOf A n i = schur (A.slice (n + n) (n + n) i) := by
  have h2 : blk A n i 0 n = ur (A.slice (n + n) (n + n) i) := by
    ext a b; simp [blk, ur, NdArr.slice, add_comm]
  have h3 : blk A n i n 0 = ll (A.slice (n + n) (n + n) i) := by
    ext a b; simp [blk, ll, NdArr.slice, add_comm]
  have h4 : blk A n i n n = lr (A.slice (n + n) (n + n) i) := by
    ext a b; simp [blk, lr, NdArr.slice, add_comm]
  unfold schurOf schur
  rw [blk_ul, h2, h3, h4]

/-- **C07 (i).** Whatever `inv_3d_blockmatrix` returns is a stack of two-sided inverses. -/
theorem C07_inverse {A R : NdArr} {d0 n : ℕ} (hA : A.shape = [d0, n + n, n + n])
    (h : invBlock3d A = .ok R) : R.shape = A.shape ∧ ∀ i < d0,
      A.slice (n + n) (n + n) i * R.slice (n + n) (n + n) i = 1 ∧
      R.slice (n + n) (n + n) i * A.slice (n + n) (n + n) i = 1 := by
  rw [hA]; exact invBlock3d_mul hA h

/-- **C07 (ii).** Exact error condition for stacks of even square matrices. -/
theorem C07_linalg_error {A : NdArr} {d0 n : ℕ} (hA : A.shape = [d0, n + n, n + n]) :
    (invBlock3d A = .error .linAlgError ↔ ∃ i < d0,
      (ul (A.slice (n + n) (n + n) i)).det = 0 ∨ (schur (A.slice (n + n) (n + n) i)).det = 0) ∧
    ((∃ R, invBlock3d A = .ok R) ∨ invBlock3d A = .error .linAlgError) := by
  simp only [← blk_ul, ← schurOf_eq]
  by_cases h11 : ∃ i < d0, (blk A n i 0 0).det = 0
  · have := invBlock3d_err11 hA h11
    obtain ⟨i, hi, hd⟩ := h11
    exact ⟨⟨fun _ => ⟨i, hi, .inl hd⟩, fun _ => this⟩, .inr this⟩
  · have h11' : ∀ i < d0, (blk A n i 0 0).det ≠ 0 := by push Not at h11; exact h11
    rcases invBlock3d_core hA h11' with ⟨⟨i, hi, hd⟩, he⟩ | ⟨hdet, R, hR, _⟩
    · exact ⟨⟨fun _ => ⟨i, hi, .inr hd⟩, fun _ => he⟩, .inr he⟩
    · refine ⟨⟨fun h => ?_, fun ⟨i, hi, h⟩ => ?_⟩, .inl ⟨R, hR⟩⟩
      · rw [hR] at h; cases h
      · rcases h with h | h
        · exact absurd h (h11' i hi)
        · exact absurd h (hdet i hi)

/-- **C07 (iii).** Every other shape raises `ValueError`. -/
theorem C07_shape_error {A : NdArr} (h : ¬ ∃ d0 n, A.shape = [d0, n + n, n + n]) :
    invBlock3d A = .error .valueError := by
  unfold invBlock3d
  split
  · rename_i d0 d1 d2 hs
    rw [if_pos]
    by_contra hc
    push Not at hc
    exact h ⟨d0, d1 / 2, by rw [hs, ← hc.2]; congr 2 <;> first | omega | (congr 1; omega)⟩
  · rfl

/-- A concrete stack that is inverted: one slice `[[2,0],[0,1]]`. -/
example : ∃ A R : NdArr, A.shape = [1, 1 + 1, 1 + 1] ∧ invBlock3d A = .ok R := by
  let A := NdArr.mk3 1 2 2 fun _ a b => if a = b then (2 : ℝ) - a else 0
  have hA : A.shape = [1, 1 + 1, 1 + 1] := rfl
  rcases (C07_linalg_error hA).2 with ⟨R, hR⟩ | he
  · exact ⟨A, R, hA, hR⟩
  · exfalso
    obtain ⟨i, hi, h⟩ := (C07_linalg_error hA).1.1 he
    rcases h with h | h
    · simp [ul, A, NdArr.slice, NdArr.mk3] at h
    · have hll : ll (A.slice (1 + 1) (1 + 1) i) = 0 := by
        ext a b; simp [ll, A, NdArr.slice, NdArr.mk3]
      rw [schur, hll] at h
      norm_num [lr, A, NdArr.slice, NdArr.mk3] at h

/-! ## C08 -/

/-- **C08 (refutation).** An invertible matrix that `inv_3d_blockmatrix` does not invert. -/
theorem C08_refuted : ∃ A : NdArr, A.shape = [1, 1 + 1, 1 + 1] ∧
    (A.slice (1 + 1) (1 + 1) 0).det ≠ 0 ∧ invBlock3d A = .error .linAlgError := by
  let A := NdArr.mk3 1 2 2 fun _ a b => if a = b then (0 : ℝ) else 1
  have hA : A.shape = [1, 1 + 1, 1 + 1] := rfl
  refine ⟨A, hA, ?_, ?_⟩
  · rw [Matrix.det_fin_two]; simp [A, NdArr.slice, NdArr.mk3]
  · rw [(C07_linalg_error hA).1]
    exact ⟨0, by omega, .inl (by simp [ul, A, NdArr.slice, NdArr.mk3])⟩

/-- **C08 (partial).** Every stack of invertible matrices *whose leading blocks are invertible* is
inverted.  Missing from the full claim (all invertible stacks): singular leading blocks, for which
the claim is false by `C08_refuted`. -/
theorem C08_invertible_partial {A : NdArr} {d0 n : ℕ} (hA : A.shape = [d0, n + n, n + n])
    (hdet : ∀ i < d0, (A.slice (n + n) (n + n) i).det ≠ 0)
    (hlead : ∀ i < d0, (ul (A.slice (n + n) (n + n) i)).det ≠ 0) :
    ∃ R, invBlock3d A = .ok R := by
  rcases (C07_linalg_error hA).2 with h | h
  · exact h
  · exfalso
    obtain ⟨i, hi, h⟩ := (C07_linalg_error hA).1.1 h
    rcases h with h | h
    · exact hlead i hi h
    · apply hdet i hi
      have hu := hlead i hi
      rw [← blk_ul] at hu
      rw [← schurOf_eq] at h
      rw [← Matrix.det_submatrix_equiv_self (finSumFinEquiv (m := n) (n := n)), blk_fromBlocks]
      let _ : Invertible (blk A n i 0 0) :=
        Matrix.invertibleOfIsUnitDet _ (isUnit_iff_ne_zero.2 hu)
      rw [Matrix.det_fromBlocks₁₁, Matrix.invOf_eq_nonsing_inv]
      unfold schurOf at h
      rw [h, mul_zero]

/-- Hypotheses of the partial statement are met by `[[2,0],[0,1]]`. -/
example : ∃ A : NdArr, A.shape = [1, 1 + 1, 1 + 1] ∧
    (∀ i < 1, (A.slice (1 + 1) (1 + 1) i).det ≠ 0) ∧
    (∀ i < 1, (ul (A.slice (1 + 1) (1 + 1) i)).det ≠ 0) := by
  refine ⟨NdArr.mk3 1 2 2 fun _ a b => if a = b then (2 : ℝ) - a else 0, rfl, ?_, ?_⟩
  · intro i _; rw [Matrix.det_fin_two]; norm_num [NdArr.slice, NdArr.mk3]
  · intro i _; simp [ul, NdArr.slice, NdArr.mk3]

/-! ## C09 -/

/-- **C09 (i).** `trace_dot_3d(m1, m2)[i] = tr((1 - m1[i])⁻¹ m2[i])`, and `1 - m1[i]` is invertible. -/
theorem C09_trace_dot {m1 m2 : NdArr} {d0 n : ℕ} (h1 : m1.shape = [d0, n + n, n + n])
    {L : List ℝ} (h : traceDot3d m1 m2 = .ok L) :
    (∀ i < d0, (1 - m1.slice (n + n) (n + n) i).det ≠ 0) ∧
    L = (List.range d0).map fun i =>
      ((1 - m1.slice (n + n) (n + n) i)⁻¹ * m2.slice (n + n) (n + n) i).trace := by
  unfold traceDot3d at h
  rw [h1] at h
  simp only [ne_eq, not_true_eq_false, if_false] at h
  set X := NdArr.mk3 d0 (n + n) (n + n) fun i a b => (if a = b then 1 else 0) - m1.val [i, a, b]
    with hX
  have hXs : ∀ i, X.slice (n + n) (n + n) i = 1 - m1.slice (n + n) (n + n) i := by
    intro i
    ext a b
    simp [hX, NdArr.slice, NdArr.mk3, Matrix.one_apply, Fin.ext_iff]
  cases hR : invBlock3d X with
  | error e => rw [hR] at h; cases h
  | ok R =>
    rw [hR, ok_bind] at h
    obtain ⟨_, hinv⟩ := C07_inverse (A := X) (d0 := d0) (n := n) rfl hR
    have hdet : ∀ i < d0, (1 - m1.slice (n + n) (n + n) i).det ≠ 0 := by
      intro i hi
      have := congrArg Matrix.det (hinv i hi).1
      rw [Matrix.det_mul, Matrix.det_one, hXs] at this
      exact left_ne_zero_of_mul_eq_one this
    refine ⟨hdet, ?_⟩
    split_ifs at h with hm
    cases h
    refine List.map_congr_left fun i hi => ?_
    have hi' := List.mem_range.1 hi
    have : R.slice (n + n) (n + n) i = (1 - m1.slice (n + n) (n + n) i)⁻¹ := by
      rw [← hXs]
      exact (Matrix.inv_eq_left_inv (hinv i hi').2).symm
    rw [← this]
    rfl

/-- **C09 (ii).** For a differentiable family `M(t)` the quantity `tr((1-M)⁻¹ M')` computed by
`trace_dot_3d` is minus the derivative of `ln|det(1-M(t))|`. -/
theorem C09_derivative {n : ℕ} {M : ℝ → Matrix (Fin n) (Fin n) ℝ} {M' : Matrix (Fin n) (Fin n) ℝ}
    {t : ℝ} (h : ∀ i j, HasDerivAt (fun s => M s i j) (M' i j) t) (hdet : (1 - M t).det ≠ 0) :
    HasDerivAt (fun s => Real.log |(1 - M s).det|) (-((1 - M t)⁻¹ * M').trace) t :=
  hasDerivAt_log_det_one_sub h hdet

/-- **C09 (iii).** `trace_dot_3d` does return when the leading blocks and the matrices `1 - m1[i]`
are invertible and the shapes agree. -/
theorem C09_returns {m1 m2 : NdArr} {d0 n : ℕ} (h1 : m1.shape = [d0, n + n, n + n])
    (h2 : m2.shape = [d0, n + n, n + n])
    (hdet : ∀ i < d0, (1 - m1.slice (n + n) (n + n) i).det ≠ 0)
    (hlead : ∀ i < d0, (ul (1 - m1.slice (n + n) (n + n) i)).det ≠ 0) :
    ∃ L, traceDot3d m1 m2 = .ok L := by
  unfold traceDot3d
  rw [h1]
  simp only [ne_eq, not_true_eq_false, if_false]
  set X := NdArr.mk3 d0 (n + n) (n + n) fun i a b => (if a = b then 1 else 0) - m1.val [i, a, b]
    with hX
  have hXs : ∀ i, X.slice (n + n) (n + n) i = 1 - m1.slice (n + n) (n + n) i := by
    intro i
    ext a b
    simp [hX, NdArr.slice, NdArr.mk3, Matrix.one_apply, Fin.ext_iff]
  obtain ⟨R, hR⟩ := C08_invertible_partial (A := X) (d0 := d0) (n := n) rfl
    (fun i hi => by rw [hXs]; exact hdet i hi) (fun i hi => by rw [hXs]; exact hlead i hi)
  rw [hR, ok_bind, if_pos h2]
  exact ⟨_, rfl⟩

/-- Hypotheses of C09 are met, e.g. by `m1 = [[1/2,0],[0,1/2]]`. -/
example : ∃ m1 : NdArr, m1.shape = [1, 1 + 1, 1 + 1] ∧
    (∀ i < 1, (1 - m1.slice (1 + 1) (1 + 1) i).det ≠ 0) ∧
    (∀ i < 1, (ul (1 - m1.slice (1 + 1) (1 + 1) i)).det ≠ 0) := by
  refine ⟨NdArr.mk3 1 2 2 fun _ a b => if a = b then (1 / 2 : ℝ) else 0, rfl, ?_, ?_⟩
  · intro i _; rw [Matrix.det_fin_two]; simp [NdArr.slice, NdArr.mk3]; norm_num
  · intro i _; simp [ul, NdArr.slice, NdArr.mk3]; norm_num

/-! ## C74: `dot_3d_matrices` and `inv_3d_matrix` -/

/-- **C74 (i).** `dot_3d_matrices` is the slice-wise matrix product. -/
theorem C74_dot {A B : NdArr} {d0 d1 d2 d3 : ℕ} (hA : A.shape = [d0, d1, d2])
    (hB : B.shape = [d0, d2, d3]) : ∃ R, dot3d A B = .ok R ∧ R.shape = [d0, d1, d3] ∧
      ∀ i < d0, R.slice d1 d3 i = A.slice d1 d2 i * B.slice d2 d3 i := by
  unfold dot3d
  rw [hA, hB]
  refine ⟨_, if_pos ⟨rfl, rfl⟩, rfl, fun i _ => ?_⟩
  ext a b
  rw [Matrix.mul_apply]
  rfl

/-- **C74 (ii).** `inv_3d_matrix` returns the slice-wise two-sided inverse exactly for stacks of
invertible square matrices; otherwise (three-dimensional input) it raises LinAlgError. -/
theorem C74_inv {A : NdArr} {d0 d1 d2 : ℕ} (hA : A.shape = [d0, d1, d2]) (h0 : 0 < d0) :
    (∀ R, inv3d A = .ok R → R.shape = A.shape ∧ d1 = d2 ∧ ∀ i < d0,
      A.slice d1 d1 i * R.slice d1 d1 i = 1 ∧ R.slice d1 d1 i * A.slice d1 d1 i = 1) ∧
    ((∃ R, inv3d A = .ok R) ↔ d1 = d2 ∧ ∀ i < d0, IsUnit (A.slice d1 d1 i)) ∧
    ((∃ R, inv3d A = .ok R) ∨ inv3d A = .error .linAlgError) := by
  have hu : ∀ i, IsUnit (A.slice d1 d1 i) ↔ (A.slice d1 d1 i).det ≠ 0 := fun i => by
    rw [Matrix.isUnit_iff_isUnit_det, isUnit_iff_ne_zero]
  unfold inv3d
  rw [hA]
  dsimp only
  rw [if_neg h0.ne']
  by_cases h12 : d1 = d2
  · rw [if_neg (not_not.2 h12)]
    by_cases hs : ∃ i < d0, (A.slice d1 d1 i).det = 0
    · rw [if_pos hs]
      refine ⟨fun R h => (by cases h), ⟨fun ⟨R, h⟩ => (by cases h), fun ⟨_, h⟩ => ?_⟩, .inr rfl⟩
      obtain ⟨i, hi, hd⟩ := hs
      exact absurd hd ((hu i).1 (h i hi))
    · rw [if_neg hs]
      push Not at hs
      refine ⟨fun R h => ?_, ⟨fun _ => ⟨h12, fun i hi => (hu i).2 (hs i hi)⟩, fun _ => ⟨_, rfl⟩⟩,
        .inl ⟨_, rfl⟩⟩
      injection h with h
      subst h
      refine ⟨by subst h12; rfl, h12, fun i hi => ?_⟩
      have he : (NdArr.mk3 d0 d1 d1 fun i a b =>
          if h : a < d1 ∧ b < d1 then (A.slice d1 d1 i)⁻¹ ⟨a, h.1⟩ ⟨b, h.2⟩ else 0).slice d1 d1 i =
          (A.slice d1 d1 i)⁻¹ := by
        ext a b
        rw [mk3_slice]
        simp [a.2, b.2]
      rw [he]
      have hd : IsUnit (A.slice d1 d1 i).det := isUnit_iff_ne_zero.2 (hs i hi)
      exact ⟨Matrix.mul_nonsing_inv _ hd, Matrix.nonsing_inv_mul _ hd⟩
  · rw [if_pos h12]
    exact ⟨fun R h => (by cases h), ⟨fun ⟨R, h⟩ => (by cases h), fun h => absurd h.1 h12⟩, .inr rfl⟩

/-- **C74 (iii).** Arrays that are not three-dimensional are rejected, but (except for one-dimensional
input of `inv_3d_matrix`) by a TypeError, not by the ValueError written in the code. -/
theorem C74_shape_errors (A B : NdArr) :
    (A.shape.length ≠ 3 ∨ B.shape.length ≠ 3 → dot3d A B = .error .typeError) ∧
    (A.shape.length ≠ 3 → inv3d A = .error (if A.shape.length = 1 then .valueError else .typeError)) := by
  constructor
  · intro h
    unfold dot3d
    split
    · rename_i hA hB
      rw [hA, hB] at h
      simp at h
    · rfl
  · intro h
    unfold inv3d
    split
    · rename_i hA
      rw [hA] at h; simp at h
    · rename_i hA
      rw [hA]; rfl
    · rename_i hA hA'
      rw [if_neg]
      intro hl
      obtain ⟨x, hx⟩ := List.length_eq_one_iff.1 hl
      exact hA' x hx

example : ∃ R, inv3d (NdArr.mk3 2 1 1 fun i _ _ => i + 1) = .ok R := by
  refine ((C74_inv (d0 := 2) (d1 := 1) (d2 := 1) rfl (by norm_num)).2.1).2 ⟨rfl, fun i _ => ?_⟩
  rw [Matrix.isUnit_iff_isUnit_det, isUnit_iff_ne_zero, Matrix.det_fin_one]
  show (i : ℝ) + 1 ≠ 0
  positivity

end CasSph
