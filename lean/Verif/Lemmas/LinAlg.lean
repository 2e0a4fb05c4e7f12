import Verif.Model.LinAlg
import Verif.Lemmas.Balance
import Mathlib.LinearAlgebra.Matrix.SchurComplement
import Mathlib.Logic.Equiv.Fin.Basic

namespace CasSph

open scoped Classical

/-! ## balance and determinants -/

theorem PowSim.isUnit_diag {n : ℕ} (d : Fin n → ℤ) :
    Matrix.diagonal (fun i => ((2 : ℝ) ^ d i)⁻¹) * Matrix.diagonal (fun i => (2 : ℝ) ^ d i) = 1 := by
  rw [Matrix.diagonal_mul_diagonal]
  have : (fun i => ((2 : ℝ) ^ d i)⁻¹ * (2 : ℝ) ^ d i) = fun _ => 1 := by
    funext i; exact inv_mul_cancel₀ (by positivity)
  rw [this]; exact Matrix.diagonal_one

theorem PowSim.det {n : ℕ} {A B : Matrix (Fin n) (Fin n) ℝ} (h : PowSim A B) : B.det = A.det := by
  obtain ⟨d, rfl⟩ := h.eq_conj
  have := congrArg Matrix.det (PowSim.isUnit_diag d)
  rw [Matrix.det_mul, Matrix.det_one] at this
  rw [Matrix.det_mul, Matrix.det_mul]
  linear_combination A.det * this

theorem slogdetBalanced_eq {n fuel : ℕ} {conv : ℝ} {M : Matrix (Fin n) (Fin n) ℝ} {x : EReal}
    (h : slogdetBalanced fuel conv M = some x) : x = slogdet1 (1 - M) := by
  unfold slogdetBalanced at h
  rw [Option.map_eq_some_iff] at h
  obtain ⟨B, hB, rfl⟩ := h
  unfold slogdet1
  rw [(balance_powSim hB).det]

theorem slogdetBalanced_total {n : ℕ} {conv : ℝ} (hc : conv < 1) (M : Matrix (Fin n) (Fin n) ℝ) :
    ∃ N, ∀ fuel, N < fuel → slogdetBalanced fuel conv M = some (slogdet1 (1 - M)) := by
  obtain ⟨N, hN⟩ := balance_total hc (1 - M)
  refine ⟨N, fun fuel hf => ?_⟩
  obtain ⟨B, hB⟩ := hN fuel hf
  have : slogdetBalanced fuel conv M = some (slogdet1 B) := by
    unfold slogdetBalanced; rw [hB]; rfl
  rw [this, ← slogdetBalanced_eq this]

theorem mapM_some {α β : Type*} {f : α → Option β} {g : α → β} :
    ∀ {l : List α}, (∀ a ∈ l, f a = some (g a)) → l.mapM f = some (l.map g) := by
  intro l
  induction l with
  | nil => intro _; rfl
  | cons a l ih =>
    intro h
    rw [List.mapM_cons, h a (by simp), ih (fun b hb => h b (by simp [hb]))]
    rfl

theorem mapM_inv {α β : Type*} {f : α → Option β} {g : α → β}
    (hfg : ∀ a b, f a = some b → b = g a) :
    ∀ {l : List α} {r : List β}, l.mapM f = some r → r = l.map g := by
  intro l
  induction l with
  | nil => intro r h; cases h; rfl
  | cons a l ih =>
    intro r h
    rw [List.mapM_cons] at h
    cases ha : f a with
    | none => simp [ha] at h
    | some b =>
      cases hl : l.mapM f with
      | none => simp [ha, hl] at h
      | some bs =>
        rw [ha, hl] at h
        cases h
        rw [ih hl, hfg a b ha]; rfl

theorem exists_common_fuel {P : ℕ → ℕ → Prop} (d : ℕ)
    (h : ∀ i < d, ∃ N, ∀ fuel, N < fuel → P i fuel) :
    ∃ N, ∀ fuel, N < fuel → ∀ i < d, P i fuel := by
  induction d with
  | zero => exact ⟨0, fun _ _ i hi => by omega⟩
  | succ d ih =>
    obtain ⟨N, hN⟩ := ih fun i hi => h i (by omega)
    obtain ⟨N', hN'⟩ := h d (by omega)
    refine ⟨max N N', fun fuel hf i hi => ?_⟩
    rcases Nat.lt_succ_iff_lt_or_eq.1 hi with hi | rfl
    · exact hN fuel (by omega) i hi
    · exact hN' fuel (by omega)

theorem ok_bind {α β : Type} (a : α) (f : α → Res β) : ((Except.ok a : Res α) >>= f) = f a := rfl

theorem error_bind {α β : Type} (e : PyErr) (f : α → Res β) :
    ((Except.error e : Res α) >>= f) = .error e := rfl

/-! ## block matrices -/

theorem fin_split {n : ℕ} (M : Matrix (Fin (n + n)) (Fin (n + n)) ℝ) :
    M.submatrix finSumFinEquiv finSumFinEquiv =
      Matrix.fromBlocks (fun a b => M (Fin.castAdd n a) (Fin.castAdd n b))
        (fun a b => M (Fin.castAdd n a) (Fin.natAdd n b))
        (fun a b => M (Fin.natAdd n a) (Fin.castAdd n b))
        (fun a b => M (Fin.natAdd n a) (Fin.natAdd n b)) := by
  ext a b
  rcases a with a | a <;> rcases b with b | b <;> rfl

theorem npAppend2_ok {A B : NdArr} {d0 d1 d2 : ℕ} (hA : A.shape = [d0, d1, d2])
    (hB : B.shape = [d0, d1, d2]) :
    npAppend2 A B = .ok (NdArr.mk3 d0 d1 (d2 + d2) fun i a b =>
        if b < d2 then A.val [i, a, b] else B.val [i, a, b - d2]) := by
  unfold npAppend2
  rw [hA, hB]
  simp only [and_self, if_true]

theorem npAppend1_ok {A B : NdArr} {d0 d1 d2 : ℕ} (hA : A.shape = [d0, d1, d2])
    (hB : B.shape = [d0, d1, d2]) :
    npAppend1 A B = .ok (NdArr.mk3 d0 (d1 + d1) d2 fun i a b =>
        if a < d1 then A.val [i, a, b] else B.val [i, a - d1, b]) := by
  unfold npAppend1
  rw [hA, hB]
  simp only [and_self, if_true]

theorem matrixAppend_ok {A B C D : NdArr} {d0 d1 d2 : ℕ} (hA : A.shape = [d0, d1, d2])
    (hB : B.shape = [d0, d1, d2]) (hC : C.shape = [d0, d1, d2]) (hD : D.shape = [d0, d1, d2]) :
    ∃ M, matrixAppend A B C D = .ok M ∧ M.shape = [d0, d1 + d1, d2 + d2] ∧
      ∀ i a b, M.val [i, a, b] =
        if a < d1 then (if b < d2 then A.val [i, a, b] else B.val [i, a, b - d2])
        else (if b < d2 then C.val [i, a - d1, b] else D.val [i, a - d1, b - d2]) := by
  unfold matrixAppend
  rw [if_pos ⟨by rw [hA, hB], by rw [hB, hC], by rw [hC, hD]⟩, npAppend2_ok hA hB,
    npAppend2_ok hC hD, ok_bind, ok_bind, npAppend1_ok rfl rfl]
  exact ⟨_, rfl, rfl, fun i a b => rfl⟩

/-- The slices of the appended matrix are the block matrices. -/
theorem matrixAppend_slice {A B C D M : NdArr} {n : ℕ} (i : ℕ)
    (h : ∀ i a b, M.val [i, a, b] =
        if a < n then (if b < n then A.val [i, a, b] else B.val [i, a, b - n])
        else (if b < n then C.val [i, a - n, b] else D.val [i, a - n, b - n])) :
    (M.slice (n + n) (n + n) i).submatrix finSumFinEquiv finSumFinEquiv =
      Matrix.fromBlocks (A.slice n n i) (B.slice n n i) (C.slice n n i) (D.slice n n i) := by
  rw [fin_split]
  congr 1 <;> ext a b <;> simp [NdArr.slice, h]

theorem det_one_sub_slice {A B C D M : NdArr} {n : ℕ} (i : ℕ)
    (h : (M.slice (n + n) (n + n) i).submatrix finSumFinEquiv finSumFinEquiv =
      Matrix.fromBlocks (A.slice n n i) (B.slice n n i) (C.slice n n i) (D.slice n n i)) :
    (1 - M.slice (n + n) (n + n) i).det =
      (1 - Matrix.fromBlocks (A.slice n n i) (B.slice n n i) (C.slice n n i) (D.slice n n i)).det := by
  rw [← h, ← Matrix.det_submatrix_equiv_self (finSumFinEquiv (m := n) (n := n))]
  congr 1
  rw [Matrix.submatrix_sub]
  simp

/-! ## block inverse -/

theorem mk3_val (d0 d1 d2 : ℕ) (v : ℕ → ℕ → ℕ → ℝ) (i a b : ℕ) :
    (NdArr.mk3 d0 d1 d2 v).val [i, a, b] = v i a b := rfl

theorem mk3_slice (d0 d1 d2 : ℕ) (v : ℕ → ℕ → ℕ → ℝ) (n m i : ℕ) :
    (NdArr.mk3 d0 d1 d2 v).slice n m i = fun a b => v i a.1 b.1 := rfl

/-- `dot3d` on matching shapes. -/
theorem dot3d_ok {A B : NdArr} {d0 d1 d2 d3 : ℕ} (hA : A.shape = [d0, d1, d2])
    (hB : B.shape = [d0, d2, d3]) :
    ∃ C, dot3d A B = .ok C ∧ C.shape = [d0, d1, d3] ∧
      ∀ i, C.slice d1 d3 i = A.slice d1 d2 i * B.slice d2 d3 i := by
  unfold dot3d
  rw [hA, hB]
  simp only [and_self, if_true]
  refine ⟨_, rfl, rfl, fun i => ?_⟩
  ext a b
  rw [Matrix.mul_apply]
  rfl

theorem inv3d_ok {A : NdArr} {d0 n : ℕ} (hA : A.shape = [d0, n, n])
    (h : ∀ i < d0, (A.slice n n i).det ≠ 0) :
    ∃ C, inv3d A = .ok C ∧ C.shape = [d0, n, n] ∧ ∀ i < d0, C.slice n n i = (A.slice n n i)⁻¹ := by
  unfold inv3d
  rw [hA]
  simp only [ne_eq, not_true_eq_false, if_false]
  split_ifs with h0 hs
  · exact ⟨A, rfl, hA, fun i hi => by omega⟩
  · obtain ⟨i, hi, hd⟩ := hs
    exact absurd hd (h i hi)
  · refine ⟨_, rfl, rfl, fun i _ => ?_⟩
    ext a b
    simp [NdArr.slice, NdArr.mk3]

theorem inv3d_err {A : NdArr} {d0 n : ℕ} (hA : A.shape = [d0, n, n])
    (h : ∃ i < d0, (A.slice n n i).det = 0) : inv3d A = .error .linAlgError := by
  obtain ⟨i, hi, hd⟩ := h
  unfold inv3d
  rw [hA]
  simp only [ne_eq, not_true_eq_false, if_false]
  rw [if_neg (by omega), if_pos ⟨i, hi, hd⟩]

theorem npSub3_ok {A B : NdArr} {d0 d1 d2 : ℕ} (hA : A.shape = [d0, d1, d2])
    (hB : B.shape = [d0, d1, d2]) : ∃ C, npSub3 A B = .ok C ∧ C.shape = [d0, d1, d2] ∧
      ∀ i, C.slice d1 d2 i = A.slice d1 d2 i - B.slice d1 d2 i := by
  unfold npSub3
  rw [hA, hB]
  simp only [if_true]
  exact ⟨_, rfl, rfl, fun i => rfl⟩

theorem npAdd3_ok {A B : NdArr} {d0 d1 d2 : ℕ} (hA : A.shape = [d0, d1, d2])
    (hB : B.shape = [d0, d1, d2]) : ∃ C, npAdd3 A B = .ok C ∧ C.shape = [d0, d1, d2] ∧
      ∀ i, C.slice d1 d2 i = A.slice d1 d2 i + B.slice d1 d2 i := by
  unfold npAdd3
  rw [hA, hB]
  simp only [if_true]
  exact ⟨_, rfl, rfl, fun i => rfl⟩

/-- The four blocks of slice `i` of a `2n × 2n` stack. -/
def blk (A : NdArr) (n i r c : ℕ) : Matrix (Fin n) (Fin n) ℝ :=
  fun a b => A.val [i, r + a.1, c + b.1]

/-- Schur complement of the leading block of slice `i`. -/
noncomputable def schurOf (A : NdArr) (n i : ℕ) : Matrix (Fin n) (Fin n) ℝ :=
  blk A n i n n - blk A n i n 0 * (blk A n i 0 0)⁻¹ * blk A n i 0 n

theorem invBlock3d_err11 {A : NdArr} {d0 n : ℕ} (hA : A.shape = [d0, n + n, n + n])
    (h : ∃ i < d0, (blk A n i 0 0).det = 0) : invBlock3d A = .error .linAlgError := by
  unfold invBlock3d
  rw [hA]
  have hn : (n + n) / 2 = n := by omega
  have hm : (n + n) % 2 = 0 := by omega
  simp only [ne_eq, hm, not_true_eq_false, or_self, if_false, hn]
  rw [inv3d_err (A := A.sub3 d0 0 n 0 n) rfl h]
  rfl

theorem invBlock3d_core {A : NdArr} {d0 n : ℕ} (hA : A.shape = [d0, n + n, n + n])
    (h : ∀ i < d0, (blk A n i 0 0).det ≠ 0) :
    ((∃ i < d0, (schurOf A n i).det = 0) ∧ invBlock3d A = .error .linAlgError) ∨
    ((∀ i < d0, (schurOf A n i).det ≠ 0) ∧ ∃ R, invBlock3d A = .ok R ∧
      R.shape = [d0, n + n, n + n] ∧ ∀ i < d0,
        (R.slice (n + n) (n + n) i).submatrix finSumFinEquiv finSumFinEquiv =
        Matrix.fromBlocks
          ((blk A n i 0 0)⁻¹ + (blk A n i 0 0)⁻¹ * blk A n i 0 n * (schurOf A n i)⁻¹ *
            (blk A n i n 0 * (blk A n i 0 0)⁻¹))
          (-((blk A n i 0 0)⁻¹ * blk A n i 0 n * (schurOf A n i)⁻¹))
          (-((schurOf A n i)⁻¹ * (blk A n i n 0 * (blk A n i 0 0)⁻¹)))
          (schurOf A n i)⁻¹) := by
  have hn : (n + n) / 2 = n := by omega
  have hm : (n + n) % 2 = 0 := by omega
  unfold invBlock3d
  rw [hA]
  simp only [ne_eq, hm, not_true_eq_false, or_self, if_false, hn]
  obtain ⟨I, hI, hIs, hIv⟩ := inv3d_ok (A := A.sub3 d0 0 n 0 n) rfl h
  obtain ⟨F1, hF1, hF1s, hF1v⟩ := dot3d_ok (A := A.sub3 d0 n n 0 n) rfl hIs
  obtain ⟨G, hG, hGs, hGv⟩ := dot3d_ok (A := F1) (B := A.sub3 d0 0 n n n) hF1s rfl
  obtain ⟨S, hS, hSs, hSv⟩ := npSub3_ok (A := A.sub3 d0 n n n n) rfl hGs
  have hSch : ∀ i < d0, S.slice n n i = schurOf A n i := by
    intro i hi
    rw [hSv, hGv, hF1v, hIv i hi]
    rfl
  rw [hI, ok_bind, hF1, ok_bind, hG, ok_bind, hS, ok_bind]
  by_cases hdet : ∃ i < d0, (schurOf A n i).det = 0
  · left
    refine ⟨hdet, ?_⟩
    rw [inv3d_err hSs (by obtain ⟨i, hi, hd⟩ := hdet; exact ⟨i, hi, by rw [hSch i hi]; exact hd⟩)]
    rfl
  · right
    push Not at hdet
    refine ⟨hdet, ?_⟩
    obtain ⟨J, hJ, hJs, hJv⟩ := inv3d_ok hSs (fun i hi => by rw [hSch i hi]; exact hdet i hi)
    obtain ⟨F2, hF2, hF2s, hF2v⟩ := dot3d_ok (A := I) (B := A.sub3 d0 0 n n n) hIs rfl
    obtain ⟨P, hP, hPs, hPv⟩ := dot3d_ok hF2s hJs
    obtain ⟨Q, hQ, hQs, hQv⟩ := dot3d_ok hPs hF1s
    obtain ⟨T, hT, hTs, hTv⟩ := npAdd3_ok hIs hQs
    obtain ⟨U, hU, hUs, hUv⟩ := dot3d_ok hJs hF1s
    rw [hJ, ok_bind, ok_bind, hF2, ok_bind, hP, ok_bind, hQ, ok_bind, hT, ok_bind, ok_bind, hU, ok_bind]
    have hNP : (npNeg P).shape = [d0, n, n] := hPs
    have hNU : (npNeg U).shape = [d0, n, n] := hUs
    obtain ⟨R, hR, hRs, hRv⟩ := matrixAppend_ok hTs hNP hNU hJs
    unfold matrixAppend at hR
    rw [if_pos ⟨by rw [hTs, hNP], by rw [hNP, hNU], by rw [hNU, hJs]⟩] at hR
    refine ⟨R, hR, hRs, fun i hi => ?_⟩
    rw [matrixAppend_slice i hRv]
    congr 1
    · rw [hTv, hQv, hPv, hF2v, hJv i hi, hF1v, hIv i hi, hSch i hi]; rfl
    · have : (npNeg P).slice n n i = - P.slice n n i := rfl
      rw [this, hPv, hF2v, hJv i hi, hIv i hi, hSch i hi]; rfl
    · have : (npNeg U).slice n n i = - U.slice n n i := rfl
      rw [this, hUv, hF1v, hJv i hi, hIv i hi, hSch i hi]; rfl
    · rw [hJv i hi, hSch i hi]

theorem blk_fromBlocks (A : NdArr) (n i : ℕ) :
    (A.slice (n + n) (n + n) i).submatrix finSumFinEquiv finSumFinEquiv =
      Matrix.fromBlocks (blk A n i 0 0) (blk A n i 0 n) (blk A n i n 0) (blk A n i n n) := by
  rw [fin_split]
  congr 1 <;> ext a b <;> simp [NdArr.slice, blk, add_comm]

theorem schur_inverse {n : ℕ} (A B C D : Matrix (Fin n) (Fin n) ℝ) (hA : A.det ≠ 0)
    (hS : (D - C * A⁻¹ * B).det ≠ 0) :
    Matrix.fromBlocks A B C D * Matrix.fromBlocks
      (A⁻¹ + A⁻¹ * B * (D - C * A⁻¹ * B)⁻¹ * (C * A⁻¹)) (-(A⁻¹ * B * (D - C * A⁻¹ * B)⁻¹))
      (-((D - C * A⁻¹ * B)⁻¹ * (C * A⁻¹))) (D - C * A⁻¹ * B)⁻¹ = 1 := by
  let : Invertible A := Matrix.invertibleOfIsUnitDet A (isUnit_iff_ne_zero.2 hA)
  have hSdef : D - C * ⅟A * B = D - C * A⁻¹ * B := by rw [Matrix.invOf_eq_nonsing_inv]
  let : Invertible (D - C * ⅟A * B) :=
    Matrix.invertibleOfIsUnitDet _ (isUnit_iff_ne_zero.2 (by rw [hSdef]; exact hS))
  let := Matrix.fromBlocks₁₁Invertible A B C D
  have := Matrix.invOf_fromBlocks₁₁_eq A B C D
  simp only [Matrix.invOf_eq_nonsing_inv] at this
  have h2 := mul_invOf_self (Matrix.fromBlocks A B C D)
  rw [Matrix.invOf_eq_nonsing_inv, this] at h2
  simpa only [Matrix.mul_assoc] using h2

theorem invBlock3d_mul {A R : NdArr} {d0 n : ℕ} (hA : A.shape = [d0, n + n, n + n])
    (h : invBlock3d A = .ok R) : R.shape = [d0, n + n, n + n] ∧ ∀ i < d0,
      A.slice (n + n) (n + n) i * R.slice (n + n) (n + n) i = 1 ∧
      R.slice (n + n) (n + n) i * A.slice (n + n) (n + n) i = 1 := by
  by_cases h11 : ∃ i < d0, (blk A n i 0 0).det = 0
  · rw [invBlock3d_err11 hA h11] at h; cases h
  · push Not at h11
    rcases invBlock3d_core hA h11 with ⟨_, he⟩ | ⟨hdet, R', hR', hRs, hRv⟩
    · rw [he] at h; cases h
    · rw [hR'] at h
      obtain rfl : R' = R := by injection h
      refine ⟨hRs, fun i hi => ?_⟩
      have key := schur_inverse _ _ _ _ (h11 i hi) (hdet i hi)
      have h1 : A.slice (n + n) (n + n) i * R'.slice (n + n) (n + n) i = 1 := by
        have := congrArg (fun X => X.submatrix (finSumFinEquiv (m := n) (n := n)).symm
          (finSumFinEquiv (m := n) (n := n)).symm) key
        have e := hRv i hi
        unfold schurOf at e
        rw [← blk_fromBlocks, ← e, Matrix.submatrix_mul_equiv] at this
        simpa using this
      exact ⟨h1, mul_eq_one_comm.1 h1⟩

end CasSph
