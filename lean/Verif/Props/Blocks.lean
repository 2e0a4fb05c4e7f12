import Verif.Model.Blocks
import Verif.Spec.Blocks
import Verif.Lemmas.Blocks
import Verif.Props.LinAlg

/-! # Properties C10, C11 and companions: scaling and the round-trip operator -/

namespace CasSph

open scoped Classical
open Spec Matrix

variable {n p : ℕ}

/-! ## C10 -/

/-- **C10 (i).** One block: using `exp(single_k_scale(X))` instead of `exp(X)` as weight of the
summands `c` changes neither `det(1-M)` nor the trace of any power. -/
theorem C10_scaling_one_block {X skal : Fin n → Fin n → Fin p → ℝ}
    (h : dynamicScaling X = .ok skal) (c : Fin n → Fin n → Fin p → ℝ) :
    SameRoundTrip (Matrix.of fun l1 l2 => ∑ s, skal l1 l2 s * c l1 l2 s)
      (Matrix.of fun l1 l2 => ∑ s, Real.exp (X l1 l2 s) * c l1 l2 s) := by
  obtain ⟨a, ha⟩ := dynamicScaling_spec h
  exact sameRoundTrip_of_diag (fun l => Real.exp (a * l.1)) (fun _ => (Real.exp_pos _).ne')
    (fun l1 l2 => sumSs_scaled ha c l1 l2)

/-- **C10 (ii).** Four polarisation blocks sharing one scale tensor: the full block matrix is
unchanged in the same sense. -/
theorem C10_scaling_four_blocks {X skal : Fin n → Fin n → Fin p → ℝ}
    (h : dynamicScaling X = .ok skal) (c₁ c₂ c₃ c₄ : Fin n → Fin n → Fin p → ℝ) :
    let S := fun c : Fin n → Fin n → Fin p → ℝ =>
      (Matrix.of fun l1 l2 => ∑ s, skal l1 l2 s * c l1 l2 s)
    let U := fun c : Fin n → Fin n → Fin p → ℝ =>
      (Matrix.of fun l1 l2 => ∑ s, Real.exp (X l1 l2 s) * c l1 l2 s)
    SameRoundTrip (fromBlocks (S c₁) (S c₂) (S c₃) (S c₄))
      (fromBlocks (U c₁) (U c₂) (U c₃) (U c₄)) := by
  obtain ⟨a, ha⟩ := dynamicScaling_spec h
  refine sameRoundTrip_of_diag (Sum.elim (fun l => Real.exp (a * l.1)) fun l => Real.exp (a * l.1))
    (fun i => by rcases i with i | i <;> exact (Real.exp_pos _).ne') ?_
  rintro (i | i) (j | j)
  · exact sumSs_scaled ha c₁ i j
  · exact sumSs_scaled ha c₂ i j
  · exact sumSs_scaled ha c₃ i j
  · exact sumSs_scaled ha c₄ i j

/-- **C10 (iii).** The scaling succeeds for every non-empty tensor. -/
theorem C10_scaling_total (hn : 0 < n) (hp : 0 < p) (X : Fin n → Fin n → Fin p → ℝ) :
    ∃ skal, dynamicScaling X = .ok skal := dynamicScaling_ok hn hp X

/-- A non-trivial case: the scaling really changes the tensor `X(l₁,l₂) = l₁`. -/
example : ∃ skal, dynamicScaling (n := 2) (p := 1) (fun l1 _ _ => (l1.1 : ℝ)) = .ok skal ∧
    skal 1 0 0 ≠ Real.exp 1 := by
  obtain ⟨skal, h⟩ := C10_scaling_total (n := 2) (p := 1) (by omega) (by omega)
    (fun l1 _ _ => (l1.1 : ℝ))
  refine ⟨skal, h, ?_⟩
  have ho : npArgmax (n := 1) (fun _ => (((0 : Fin 2)).1 : ℝ)) = some 0 := by
    simp [npArgmax, List.finRange_succ, List.argmax_singleton]
  unfold dynamicScaling at h
  rw [singleKScale_add_two, scaleSlope_some (k := 0) (o := 0) ho] at h
  cases h
  intro hc
  have := Real.exp_injective hc
  norm_num [Fin.last] at this

/-! ## C11 -/

theorem four_product (a : Fin n → ℝ) (b : Fin p → ℝ) (f g : Matrix (Fin n) (Fin p) ℝ) (l1 l2 : Fin n) :
    (diagonal a * f * diagonal b * gᵀ) l1 l2 = ∑ s, a l1 * f l1 s * b s * g l2 s := by
  rw [Matrix.mul_apply]
  refine Finset.sum_congr rfl fun s _ => ?_
  rw [mul_diagonal, diagonal_mul, transpose_apply]

/-- The block matrix assembled by `blockmatrices` and the operator product are conjugate by a diagonal matrix. -/
theorem blockmatrices_diag {e : RTElems n p} {B : Blocks n} (h : blockmatrices e = .ok B) :
    ∃ d : Fin n ⊕ Fin n → ℝ, (∀ i, d i ≠ 0) ∧ ∀ i j, fromBlocks B.EE B.EM B.ME B.MM i j = d i *
      roundTrip (fun l => e.aTE l * Real.exp (e.a2 l)) (fun l => e.aTM l * Real.exp (e.a2 l))
        (fun s => e.bTE s * Real.exp (e.b2 s)) (fun s => e.bTM s * Real.exp (e.b2 s))
        (of fun l s => e.V0 l s * Real.exp (e.V4 l s)) (of fun l s => e.V2 l s * Real.exp (e.V4 l s))
        (of fun l s => e.V1 l s * Real.exp (e.V4 l s))
        (of fun l s => e.V3 l s * Real.exp (e.V4 l s)) i j * (d j)⁻¹ := by
  unfold blockmatrices at h
  cases hs : dynamicScaling e.logSkal with
  | error _ => rw [hs] at h; cases h
  | ok skal =>
    rw [hs, ok_bind] at h
    cases h
    obtain ⟨a, ha⟩ := dynamicScaling_spec hs
    have hR : roundTrip (fun l => e.aTE l * Real.exp (e.a2 l)) (fun l => e.aTM l * Real.exp (e.a2 l))
        (fun s => e.bTE s * Real.exp (e.b2 s)) (fun s => e.bTM s * Real.exp (e.b2 s))
        (of fun l s => e.V0 l s * Real.exp (e.V4 l s)) (of fun l s => e.V2 l s * Real.exp (e.V4 l s))
        (of fun l s => e.V1 l s * Real.exp (e.V4 l s)) (of fun l s => e.V3 l s * Real.exp (e.V4 l s)) =
        fromBlocks (sumSs (fun l1 l2 s => Real.exp (e.logSkal l1 l2 s)) e.cEE) (sumSs (fun l1 l2 s => Real.exp (e.logSkal l1 l2 s)) e.cEM)
          (sumSs (fun l1 l2 s => Real.exp (e.logSkal l1 l2 s)) e.cME) (sumSs (fun l1 l2 s => Real.exp (e.logSkal l1 l2 s)) e.cMM) := by
      unfold roundTrip
      simp only [fromBlocks_multiply, Matrix.zero_mul, Matrix.mul_zero, add_zero, zero_add]
      have hexp : ∀ l1 l2 s, Real.exp (e.logSkal l1 l2 s) = Real.exp (e.a2 l1) * Real.exp (e.b2 s) *
          Real.exp (e.V4 l1 s) * Real.exp (e.V4 l2 s) := by
        intro l1 l2 s
        unfold RTElems.logSkal
        rw [Real.exp_add, Real.exp_add, Real.exp_add]
      congr 1 <;> ext l1 l2 <;>
        simp only [Matrix.add_apply, four_product, of_apply, sumSs,
          ← Finset.sum_add_distrib, hexp, RTElems.cEE, RTElems.cEM, RTElems.cME,
          RTElems.cMM] <;>
        refine Finset.sum_congr rfl fun s _ => ?_ <;> ring
    refine ⟨Sum.elim (fun l => Real.exp (a * l.1)) fun l => Real.exp (a * l.1),
      fun i => by rcases i with i | i <;> exact (Real.exp_pos _).ne', ?_⟩
    rw [hR]
    rintro (i | i) (j | j) <;> exact sumSs_scaled ha _ i j

/-- **C11.** The block matrix assembled by `blockmatrices` is, up to the diagonal similarity of the
dynamic scaling, the operator product `R₁ T₁₂ R₂ T₂₁` of the unscaled coefficients
(amplitude × exp(scale)). -/
theorem C11_blockmatrices_operator {e : RTElems n p} {B : Blocks n}
    (h : blockmatrices e = .ok B) :
    SameRoundTrip (fromBlocks B.EE B.EM B.ME B.MM)
      (roundTrip (fun l => e.aTE l * Real.exp (e.a2 l)) (fun l => e.aTM l * Real.exp (e.a2 l))
        (fun s => e.bTE s * Real.exp (e.b2 s)) (fun s => e.bTM s * Real.exp (e.b2 s))
        (of fun l s => e.V0 l s * Real.exp (e.V4 l s)) (of fun l s => e.V2 l s * Real.exp (e.V4 l s))
        (of fun l s => e.V1 l s * Real.exp (e.V4 l s))
        (of fun l s => e.V3 l s * Real.exp (e.V4 l s))) := by
  obtain ⟨d, hd, hB⟩ := blockmatrices_diag h
  exact sameRoundTrip_of_diag d hd hB

/-- **C11 (ii).** `blockmatrices` succeeds whenever there is at least one `l` and one `l''`. -/
theorem C11_blockmatrices_total (hn : 0 < n) (hp : 0 < p) (e : RTElems n p) :
    ∃ B, blockmatrices e = .ok B := by
  obtain ⟨skal, h⟩ := dynamicScaling_ok hn hp e.logSkal
  unfold blockmatrices
  rw [h]
  exact ⟨_, rfl⟩

example : ∃ B, blockmatrices (n := 2) (p := 3)
    ⟨fun l => l.1 + 1, fun _ => 2, fun l => -l.1, fun _ => 1, fun s => s.1, fun _ => -3,
     fun _ _ => 1, fun _ _ => 1, fun l s => l.1 * s.1, fun _ _ => -1, fun l s => l.1 + s.1⟩ = .ok B :=
  C11_blockmatrices_total (by omega) (by omega) _

/-! ## C70: channel decomposition -/

/-- **C70.** The eight matrices of `blockmatrices_channels` add up pairwise to the four matrices of
`blockmatrices`, and both calls fail on the same inputs. -/
theorem C70_channels_sum (e : RTElems n p) :
    (∀ err, blockmatrices e = .error err ↔ blockmatricesChannels e = .error err) ∧
    ∀ B, blockmatrices e = .ok B → ∃ EE1 EE2 MM1 MM2 EM1 EM2 ME1 ME2,
      blockmatricesChannels e = .ok [EE1, EE2, MM1, MM2, EM1, EM2, ME1, ME2] ∧
      B.EE = EE1 + EE2 ∧ B.MM = MM1 + MM2 ∧ B.EM = EM1 + EM2 ∧ B.ME = ME1 + ME2 := by
  unfold blockmatrices blockmatricesChannels
  cases hs : dynamicScaling e.logSkal with
  | error err => exact ⟨fun _ => by rw [error_bind, error_bind]; exact ⟨fun h => by injection h with h; rw [h], fun h => by injection h with h; rw [h]⟩, fun B h => by cases h⟩
  | ok skal =>
    simp only [ok_bind]
    refine ⟨fun err => ⟨fun h => (by cases h), fun h => (by cases h)⟩, fun B h => ?_⟩
    cases h
    refine ⟨_, _, _, _, _, _, _, _, rfl, ?_⟩
    refine ⟨?_, ?_, ?_, ?_⟩ <;> ext l1 l2 <;>
      simp only [Matrix.add_apply, sumSs, ← Finset.sum_add_distrib, RTElems.cEE, RTElems.cEM,
        RTElems.cME, RTElems.cMM] <;>
      refine Finset.sum_congr rfl fun s _ => ?_ <;> ring

example : ∃ B, blockmatrices (n := 2) (p := 1)
    ⟨fun _ => 1, fun _ => 2, fun _ => 0, fun _ => 1, fun _ => 3, fun _ => 0,
     fun _ _ => 1, fun _ _ => 1, fun _ _ => 1, fun _ _ => -1, fun _ _ => 0⟩ = .ok B :=
  C11_blockmatrices_total (by omega) (by omega) _

/-! ## C71: the debug variant -/

theorem npSign_mul_abs (x : ℝ) : npSign x * |x| = x := by
  unfold npSign
  split_ifs with h1 h2
  · rw [abs_of_neg h1]; ring
  · simp [h2]
  · rw [abs_of_pos (lt_of_le_of_ne (not_lt.1 h1) (Ne.symm h2))]; ring

/-- Each block of the debug variant is separately similar to the corresponding block. -/
theorem C71_debug_block_similar {X c : Fin n → Fin n → Fin p → ℝ} (hc : ∀ l1 l2 s, c l1 l2 s ≠ 0)
    {D : Matrix (Fin n) (Fin n) ℝ} (h : debugBlock X c = .ok D) :
    SameRoundTrip D (of fun l1 l2 => ∑ s, Real.exp (X l1 l2 s) * c l1 l2 s) := by
  unfold debugBlock at h
  cases hs : dynamicScaling fun l1 l2 s => X l1 l2 s + Real.log |c l1 l2 s| with
  | error _ => rw [hs] at h; cases h
  | ok skal =>
    rw [hs, ok_bind] at h
    cases h
    have := C10_scaling_one_block hs fun l1 l2 s => npSign (c l1 l2 s)
    have e : (of fun l1 l2 => ∑ s, Real.exp (X l1 l2 s) * c l1 l2 s) =
        of fun l1 l2 => ∑ s, Real.exp (X l1 l2 s + Real.log |c l1 l2 s|) * npSign (c l1 l2 s) := by
      ext l1 l2
      simp only [of_apply]
      refine Finset.sum_congr rfl fun s _ => ?_
      rw [Real.exp_add, Real.exp_log (abs_pos.2 (hc l1 l2 s)), mul_assoc, mul_comm (|c l1 l2 s|), npSign_mul_abs]
    rw [e]
    exact this

/-- **C71 (partial).** With a single `l` the debug variant equals `blockmatrices`.  Missing from the
full claim (same determinant as `blockmatrices` for all sizes): more than one `l`, where the claim
is false by `C71_refuted`. -/
theorem C71_debug_one_partial (e : RTElems 1 p) (hEE : ∀ a b s, e.cEE a b s ≠ 0)
    (hEM : ∀ a b s, e.cEM a b s ≠ 0) (hME : ∀ a b s, e.cME a b s ≠ 0) (hMM : ∀ a b s, e.cMM a b s ≠ 0) :
    blockmatricesDebug e = blockmatrices e := by
  have key : ∀ c : Fin 1 → Fin 1 → Fin p → ℝ, (∀ a b s, c a b s ≠ 0) → debugBlock e.logSkal c =
      .ok (sumSs (fun a b s => Real.exp (e.logSkal a b s)) c) := by
    intro c hc
    have : debugBlock e.logSkal c = .ok (sumSs (fun l1 l2 s => Real.exp (e.logSkal l1 l2 s +
      Real.log |c l1 l2 s|)) fun l1 l2 s => npSign (c l1 l2 s)) := rfl
    rw [this]
    congr 1
    ext a b
    refine Finset.sum_congr rfl fun s _ => ?_
    show Real.exp (e.logSkal a b s + Real.log |c a b s|) * npSign (c a b s) =
      Real.exp (e.logSkal a b s) * c a b s
    rw [Real.exp_add, Real.exp_log (abs_pos.2 (hc a b s)), mul_assoc, mul_comm (|c a b s|),
      npSign_mul_abs]
  unfold blockmatricesDebug
  rw [key _ hEE, key _ hEM, key _ hME, key _ hMM]
  rfl

/-- The elements used in the refutation of C71 (`p = 1`, two `l` values). -/
def debugWitness : RTElems 2 1 where
  aTE := fun _ => 1
  aTM := fun _ => 1
  a2 := fun _ => 0
  bTE := fun _ => 1
  bTM := fun _ => 0
  b2 := fun _ => 0
  V0 := fun _ _ => 1
  V1 := fun l _ => if l = 0 then 1 else 4
  V2 := fun l _ => if l = 0 then 1 else 2
  V3 := fun _ _ => 1
  V4 := fun _ _ => 0

theorem argmax_one (v : Fin 1 → ℝ) : npArgmax v = some 0 := by
  simp [npArgmax, List.finRange_succ, List.argmax_singleton]

/-- Value of a debug block for two `l` and one `l''`. -/
theorem debugBlock_two (X c : Fin 2 → Fin 2 → Fin 1 → ℝ) (a : ℝ)
    (ha : scaleSlope (n := 0) (fun l1 l2 s => X l1 l2 s + Real.log |c l1 l2 s|) = .ok a) :
    debugBlock X c = .ok fun l1 l2 => Real.exp (a * ((l1.1 + 1 : ℝ) - (l2.1 + 1)) +
      (X l1 l2 0 + Real.log |c l1 l2 0|)) * npSign (c l1 l2 0) := by
  unfold debugBlock dynamicScaling
  rw [singleKScale_add_two, ha, ok_bind]
  show Except.ok _ = Except.ok _
  congr 1
  ext l1 l2
  simp [sumSs]

theorem det_four (a b c d : Matrix (Fin 2) (Fin 2) ℝ) : (1 - fromBlocks a b c d).det =
    (!![1 - a 0 0, - a 0 1, - b 0 0, - b 0 1; - a 1 0, 1 - a 1 1, - b 1 0, - b 1 1;
      - c 0 0, - c 0 1, 1 - d 0 0, - d 0 1; - c 1 0, - c 1 1, - d 1 0, 1 - d 1 1] :
      Matrix (Fin 4) (Fin 4) ℝ).det := by
  rw [← det_submatrix_equiv_self (finSumFinEquiv (m := 2) (n := 2)).symm]
  congr 1
  ext i j
  fin_cases i <;> fin_cases j <;> simp [finSumFinEquiv, Fin.addCases]

theorem slope_two {X : Fin 2 → Fin 2 → Fin 1 → ℝ} :
    scaleSlope (n := 0) X = .ok (if X 1 0 0 > X 0 1 0 then
      -|X 0 0 0 - max (X 0 1 0) (X 1 0 0)| else |X 0 0 0 - max (X 0 1 0) (X 1 0 0)|) := by
  rw [scaleSlope_some (argmax_one _)]
  simp [Fin.last]

/-- **C71 (refutation).** Non-zero coefficients for which `blockmatrices_debug` and `blockmatrices`
have different determinants `det(1-M)`. -/
theorem C71_refuted : ∃ (e : RTElems 2 1) (B D : Blocks 2),
    blockmatrices e = .ok B ∧ blockmatricesDebug e = .ok D ∧
    (∀ a b s, e.cEE a b s ≠ 0 ∧ e.cEM a b s ≠ 0 ∧ e.cME a b s ≠ 0 ∧ e.cMM a b s ≠ 0) ∧
    (1 - fromBlocks D.EE D.EM D.ME D.MM).det ≠ (1 - fromBlocks B.EE B.EM B.ME B.MM).det := by
  have l4 : 0 < Real.log 4 := Real.log_pos (by norm_num)
  have l2 : 0 < Real.log 2 := Real.log_pos (by norm_num)
  have l42 : Real.log 2 < Real.log 4 := Real.log_lt_log (by norm_num) (by norm_num)
  have e4 : Real.exp (Real.log 4) = 4 := Real.exp_log (by norm_num)
  have e2 : Real.exp (Real.log 2) = 2 := Real.exp_log (by norm_num)
  have e8 : Real.exp (Real.log 8) = 8 := Real.exp_log (by norm_num)
  obtain ⟨B, hB⟩ := C11_blockmatrices_total (by omega) (by omega) debugWitness
  have hEE := debugBlock_two debugWitness.logSkal debugWitness.cEE (Real.log 4) (by
    rw [slope_two]
    simp [debugWitness, RTElems.logSkal, RTElems.cEE, l4.le, abs_of_pos l4])
  have hEM := debugBlock_two debugWitness.logSkal debugWitness.cEM 0 (by
    rw [slope_two]
    simp [debugWitness, RTElems.logSkal, RTElems.cEM])
  have hME := debugBlock_two debugWitness.logSkal debugWitness.cME (Real.log 4) (by
    rw [slope_two]
    simp [debugWitness, RTElems.logSkal, RTElems.cME, l42.le, abs_of_pos l4, not_lt.2 l42.le])
  have hMM := debugBlock_two debugWitness.logSkal debugWitness.cMM (-Real.log 2) (by
    rw [slope_two]
    simp [debugWitness, RTElems.logSkal, RTElems.cMM, l2.le, abs_of_pos l2, l2])
  have hD : blockmatricesDebug debugWitness =
      .ok ⟨!![1, 1; 4, 4], !![1, 1; 1, 1], !![1, 1; 8, 8], !![1, 2; 1, 2]⟩ := by
    unfold blockmatricesDebug
    rw [hEE, hEM, hME, hMM]
    show Except.ok _ = Except.ok _
    congr 2 <;> ext l1 l2 <;> fin_cases l1 <;> fin_cases l2 <;>
      norm_num [npSign, debugWitness, RTElems.logSkal, RTElems.cEE, RTElems.cEM, RTElems.cME,
          RTElems.cMM, e4, e2, e8, Real.exp_add, Real.exp_neg]
  refine ⟨debugWitness, B, _, hB, hD, ?_, ?_⟩
  · intro a b s
    fin_cases a <;> fin_cases b <;> simp [debugWitness, RTElems.cEE, RTElems.cEM, RTElems.cME,
      RTElems.cMM]
  · have hB' : B = ⟨!![1, 4; 1, 4], !![1, 1; 1, 1], !![1, 4; 2, 8], !![1, 1; 2, 2]⟩ := by
      unfold blockmatrices dynamicScaling at hB
      rw [singleKScale_add_two, slope_two, ok_bind] at hB
      cases hB
      congr 1 <;> ext l1 l2 <;> fin_cases l1 <;> fin_cases l2 <;>
        norm_num [sumSs, debugWitness, RTElems.logSkal, RTElems.cEE, RTElems.cEM, RTElems.cME,
          RTElems.cMM]
    rw [hB', det_four, det_four]
    have h1 := RingHom.map_det (Int.castRingHom ℝ) !![0, -1, -1, -1; -4, -3, -1, -1; -1, -1, 0, -2;
      -8, -8, -1, -1]
    have h2 := RingHom.map_det (Int.castRingHom ℝ) !![0, -4, -1, -1; -1, -3, -1, -1; -1, -4, 0, -1;
      -2, -8, -2, -1]
    rw [show (!![0, -1, -1, -1; -4, -3, -1, -1; -1, -1, 0, -2; -8, -8, -1, -1] :
      Matrix (Fin 4) (Fin 4) ℤ).det = -24 by decide] at h1
    rw [show (!![0, -4, -1, -1; -1, -3, -1, -1; -1, -4, 0, -1; -2, -8, -2, -1] :
      Matrix (Fin 4) (Fin 4) ℤ).det = -7 by decide] at h2
    have : (-24 : ℝ) ≠ -7 := by norm_num
    convert this using 1
    · convert h1.symm using 2
      · ext i j
        fin_cases i <;> fin_cases j <;> norm_num
      · norm_num
    · convert h2.symm using 2
      · ext i j
        fin_cases i <;> fin_cases j <;> norm_num
      · norm_num

/-! ## C72, C73: zero frequency -/

theorem exp_mul_log_nat {x : ℝ} (hx : 0 < x) (k : ℕ) : Real.exp (k * Real.log x) = x ^ k := by
  rw [← Real.log_pow, Real.exp_log (pow_pos hx k)]

/-- **C72.** The zero-frequency matrices of two separate spheres are, up to a diagonal similarity, the
static round-trip operators of the TE and TM polarisation with sphere radii `r1, r2` and distance `L`,
for all coefficients. -/
theorem C72_k0_ext_operator {r1 r2 L : ℝ} (h1 : 0 < r1) (h2 : 0 < r2) (hL : 0 < L)
    {e : K0Elems n p} {TE TM : Matrix (Fin n) (Fin n) ℝ}
    (h : blockmatricesK0Ext r1 r2 L e = .ok (TE, TM)) :
    SameRoundTrip TE (staticRoundTrip e.lmin r1 r2 L (fun i => e.aTE i * Real.exp (e.aLn i))
      (fun s => e.bTE s * Real.exp (e.bLn s)) (of fun i s => e.vSgn i s * Real.exp (e.vLn i s))) ∧
    SameRoundTrip TM (staticRoundTrip e.lmin r1 r2 L (fun i => e.aTM i * Real.exp (e.aLn i))
      (fun s => e.bTM s * Real.exp (e.bLn s)) (of fun i s => e.vSgn i s * Real.exp (e.vLn i s))) := by
  rcases Nat.eq_zero_or_pos n with rfl | hn
  · exact ⟨⟨congrArg _ (Subsingleton.elim _ _), fun _ => congrArg _ (Subsingleton.elim _ _)⟩,
      ⟨congrArg _ (Subsingleton.elim _ _), fun _ => congrArg _ (Subsingleton.elim _ _)⟩⟩
  have key : ∀ (a : Fin n → ℝ) (b : Fin p → ℝ) {skal : Fin n → Fin n → Fin p → ℝ},
      dynamicScaling (fun i j s => e.aLn i + e.bLn s + e.vLn i s + e.vLn j s +
        (((e.lmin + i.1 : ℝ) + (e.lmin + j.1 : ℝ) + 1) * Real.log (r1 / L) +
          (2 * (e.lmin + s.1 : ℝ) + 1) * Real.log (r2 / L))) = .ok skal →
      SameRoundTrip (sumSs skal fun i j s =>
        (-1 : ℝ) ^ (((e.lmin + s.1 : ℕ) : ℤ) - ((e.lmin + j.1 : ℕ) : ℤ)) *
          e.vSgn i s * e.vSgn j s * a i * b s)
        (staticRoundTrip e.lmin r1 r2 L (fun i => a i * Real.exp (e.aLn i))
      (fun s => b s * Real.exp (e.bLn s)) (of fun i s => e.vSgn i s * Real.exp (e.vLn i s))) := by
    intro a b skal hs
    refine SameRoundTrip.trans (C10_scaling_one_block hs _) ?_
    refine sameRoundTrip_of_diag (fun i => (r1 ^ i.1)⁻¹) (fun i => by positivity) fun i j => ?_
    unfold staticRoundTrip
    rw [four_product, of_apply, Finset.mul_sum, Finset.sum_mul]
    refine Finset.sum_congr rfl fun s _ => ?_
    have hd1 : Real.exp (((e.lmin + i.1 : ℝ) + (e.lmin + j.1 : ℝ) + 1) * Real.log (r1 / L)) =
        (r1 / L) ^ (e.lmin + i.1 + (e.lmin + j.1) + 1) := by
      rw [← exp_mul_log_nat (div_pos h1 hL)]; push_cast; rfl
    have hd2 : Real.exp ((2 * (e.lmin + s.1 : ℝ) + 1) * Real.log (r2 / L)) =
        (r2 / L) ^ (2 * (e.lmin + s.1) + 1) := by
      rw [← exp_mul_log_nat (div_pos h2 hL)]; push_cast; rfl
    have hsg : (-1 : ℝ) ^ (((e.lmin + s.1 : ℕ) : ℤ) - ((e.lmin + j.1 : ℕ) : ℤ)) =
        (-1) ^ ((e.lmin + s.1) + (e.lmin + j.1)) := by
      rw [zpow_sub₀ (by norm_num), zpow_natCast, zpow_natCast, pow_add (-1 : ℝ) (e.lmin + s.1)]
      rcases neg_one_pow_eq_or ℝ (e.lmin + j.1) with h | h <;> rw [h] <;> ring
    rw [Real.exp_add, Real.exp_add, Real.exp_add, Real.exp_add, Real.exp_add, hd1, hd2, hsg]
    simp only [of_apply, div_pow, inv_inv]
    generalize Real.exp (e.aLn i) = x1
    generalize Real.exp (e.bLn s) = x2
    generalize Real.exp (e.vLn i s) = x3
    generalize Real.exp (e.vLn j s) = x4
    generalize (-1 : ℝ) ^ ((e.lmin + s.1) + (e.lmin + j.1)) = x5
    have q1 : r1 ^ (2 * (e.lmin + i.1) + 1) = r1 ^ (e.lmin) * r1 ^ e.lmin * r1 ^ i.1 * r1 ^ i.1 * r1 := by
      ring
    have q2 : r1 ^ (e.lmin + i.1 + (e.lmin + j.1) + 1) =
      r1 ^ (e.lmin) * r1 ^ e.lmin * r1 ^ i.1 * r1 ^ j.1 * r1 := by ring
    rw [q1, q2]
    have : r1 ^ i.1 ≠ 0 := by positivity
    field_simp
    ring
  unfold blockmatricesK0Ext at h
  simp only [k0Mag_of_pos hn] at h
  cases hs : dynamicScaling (fun i j s => e.aLn i + e.bLn s + e.vLn i s + e.vLn j s +
        (((e.lmin + i.1 : ℝ) + (e.lmin + j.1 : ℝ) + 1) * Real.log (r1 / L) +
          (2 * (e.lmin + s.1 : ℝ) + 1) * Real.log (r2 / L))) with
  | error _ => simp only [hs] at h; cases h
  | ok skal =>
    simp only [hs, ok_bind] at h
    cases h
    exact ⟨key _ _ hs, key _ _ hs⟩

/-- **C72 (ii).** The evaluation succeeds whenever there is at least one `l` and one `l''`. -/
theorem C72_k0_ext_total (hn : 0 < n) (hp : 0 < p) (r1 r2 L : ℝ) (e : K0Elems n p) :
    ∃ R, blockmatricesK0Ext r1 r2 L e = .ok R := by
  unfold blockmatricesK0Ext
  simp only [k0Mag_of_pos hn]
  obtain ⟨skal, h⟩ := dynamicScaling_ok hn hp (fun i j s => e.aLn i + e.bLn s + e.vLn i s + e.vLn j s +
        (((e.lmin + i.1 : ℝ) + (e.lmin + j.1 : ℝ) + 1) * Real.log (r1 / L) +
          (2 * (e.lmin + s.1 : ℝ) + 1) * Real.log (r2 / L)))
  simp only [h]
  exact ⟨_, rfl⟩

/-- **C72 (iii).** Without multipoles (`m > lmax`) it succeeds as well, with empty matrices. -/
theorem C72_k0_ext_empty (r1 r2 L : ℝ) (e : K0Elems 0 p) : blockmatricesK0Ext r1 r2 L e = .ok (0, 0) := by
  unfold blockmatricesK0Ext
  exact congrArg Except.ok (Prod.ext (Subsingleton.elim _ _) (Subsingleton.elim _ _))

example : ∃ R, blockmatricesK0Ext (n := 2) (p := 3) 1 2 5
    ⟨1, fun _ => -1, fun _ => 1, fun l => l.1, fun _ => 1, fun _ => 1, fun s => -s.1,
      fun _ _ => 1, fun l s => l.1 * s.1⟩ = .ok R := C72_k0_ext_total (by omega) (by omega) _ _ _ _

/-- **C73.** The zero-frequency evaluation of a sphere inside a cavity fails with a TypeError for every
input unless exactly one `l` and one `l''` are present. -/
theorem C73_k0_int_typeError (hnp : ¬ (n = 1 ∧ p = 1)) (r1 r2 L : ℝ) (e : K0Elems n p) :
    blockmatricesK0Int r1 r2 L e = .error .typeError := by
  unfold blockmatricesK0Int
  rw [if_pos (by rwa [Ne, mul_eq_one])]

/-- **C73 (ii).** With one `l` and one `l''` it succeeds, and the two entries are the static interior
round-trip product `a(l) b(l) v² r1^(2l+1)/r2^(2l+1)`, independent of the distance `L`. -/
theorem C73_k0_int_one {r1 r2 L : ℝ} (h1 : 0 < r1) (h2 : 0 < r2) (hL : 0 < L) (e : K0Elems 1 1) :
    ∃ TE TM, blockmatricesK0Int r1 r2 L e = .ok (TE, TM) ∧
      TE 0 0 = (e.aTE 0 * Real.exp (e.aLn 0)) * (e.vSgn 0 0 * Real.exp (e.vLn 0 0)) ^ 2 *
        (e.bTE 0 * Real.exp (e.bLn 0)) * (r1 / r2) ^ (2 * e.lmin + 1) ∧
      TM 0 0 = (e.aTM 0 * Real.exp (e.aLn 0)) * (e.vSgn 0 0 * Real.exp (e.vLn 0 0)) ^ 2 *
        (e.bTM 0 * Real.exp (e.bLn 0)) * (r1 / r2) ^ (2 * e.lmin + 1) := by
  refine ⟨_, _, rfl, ?_⟩
  have hd : Real.exp (Real.log (r1 / r2) + (e.lmin + ((0 : Fin 1).1 : ℕ) : ℝ) * Real.log (r1 / L) +
      2 * (e.lmin + ((0 : Fin 1).1 : ℕ) : ℝ) * Real.log (L / r2) +
      (e.lmin + ((0 : Fin 1).1 : ℕ) : ℝ) * Real.log (r1 / L)) = (r1 / r2) ^ (2 * e.lmin + 1) := by
    rw [← exp_mul_log_nat (div_pos h1 h2), Real.log_div h1.ne' h2.ne', Real.log_div h1.ne' hL.ne',
      Real.log_div hL.ne' h2.ne']
    push_cast
    congr 1
    simp
    ring
  constructor <;>
  · simp only [sumSs, Fin.sum_univ_one, le_refl, and_self, if_true]
    rw [Real.exp_add, hd, Real.exp_add, Real.exp_add, Real.exp_add]
    norm_num
    ring

end CasSph
