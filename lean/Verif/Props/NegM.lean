import Verif.Props.Translation
import Verif.Props.Blocks
import Mathlib.LinearAlgebra.Matrix.SchurComplement

/-! # C12: positive and negative `m` contribute equally -/

namespace CasSph

open Spec Matrix

variable {n p n' p' : ℕ}

/-- 0-1 matrix of an inclusion of index sets. -/
def incl (e : Fin n → Fin n') : Matrix (Fin n') (Fin n) ℝ := of fun i' i => if i' = e i then 1 else 0

theorem incl_iso {e : Fin n → Fin n'} (he : Function.Injective e) : (incl e)ᵀ * incl e = 1 := by
  ext i j
  simp only [incl, mul_apply, transpose_apply, of_apply, mul_ite, mul_one, mul_zero, one_apply]
  rw [Finset.sum_eq_single (e j)]
  · by_cases h : i = j
    · simp [h]
    · rw [if_pos rfl, if_neg (fun h' => h (he h').symm), if_neg h]
  · intro b _ hb; rw [if_neg hb]
  · intro h; exact absurd (Finset.mem_univ _) h

theorem incl_mul {e : Fin n → Fin n'} (he : Function.Injective e) {ι : Type} [Fintype ι] (f : Matrix (Fin n) ι ℝ) (i : Fin n) (s : ι) :
    (incl e * f) (e i) s = f i s := by
  simp only [incl, mul_apply, of_apply, ite_mul, one_mul, zero_mul]
  rw [Finset.sum_eq_single i]
  · simp
  · intro b _ hb; rw [if_neg fun h => hb (he h).symm]
  · intro h; exact absurd (Finset.mem_univ _) h

theorem incl_mul_out {e : Fin n → Fin n'} {ι : Type} [Fintype ι] (f : Matrix (Fin n) ι ℝ) {i' : Fin n'} (h : ∀ i, i' ≠ e i)
    (s : ι) : (incl e * f) i' s = 0 := by
  simp only [incl, mul_apply, of_apply, ite_mul, one_mul, zero_mul]
  exact Finset.sum_eq_zero fun i _ => by rw [if_neg (h i)]

theorem diag_incl (e : Fin n → Fin n') (a : Fin n → ℝ) (a' : Fin n' → ℝ) (h : ∀ i, a' (e i) = a i) :
    diagonal a' * incl e = incl e * diagonal a := by
  ext i' i
  rw [diagonal_mul, mul_diagonal]
  simp only [incl, of_apply]
  by_cases hi : i' = e i
  · rw [if_pos hi, hi, h]; ring
  · rw [if_neg hi]; ring

/-- A matrix supported on the images of `e, q`, where it agrees with `f` up to the factor `t`. -/
theorem padded {e : Fin n → Fin n'} (he : Function.Injective e) {q : Fin p → Fin p'} (hq : Function.Injective q) (t : ℝ)
    (f : Matrix (Fin n) (Fin p) ℝ) (f' : Matrix (Fin n') (Fin p') ℝ)
    (h : ∀ i s, f' (e i) (q s) = t * f i s) (h1 : ∀ i' s', (∀ i, i' ≠ e i) → f' i' s' = 0)
    (h2 : ∀ i' s', (∀ s, s' ≠ q s) → f' i' s' = 0) : f' = t • (incl e * f * (incl q)ᵀ) := by
  ext i' s'
  rw [Matrix.smul_apply, smul_eq_mul, Matrix.mul_assoc]
  by_cases hi : ∃ i, i' = e i
  · obtain ⟨i, rfl⟩ := hi
    rw [incl_mul he]
    have e1 : (f * (incl q)ᵀ) i s' = (incl q * fᵀ) s' i := by
      rw [← transpose_apply (incl q * fᵀ), transpose_mul, transpose_transpose]
    rw [e1]
    by_cases hs : ∃ s, s' = q s
    · obtain ⟨s, rfl⟩ := hs
      rw [incl_mul hq, h]; rfl
    · push Not at hs
      rw [incl_mul_out _ hs, h2 _ _ hs, mul_zero]
  · push Not at hi
    rw [incl_mul_out _ hi, h1 _ _ hi, mul_zero]

/-- The same multipoles, with polarisation-mixing coefficients reversed and uncoupled multipoles added. -/
theorem roundTrip_padded {e : Fin n → Fin n'} (he : Function.Injective e) {q : Fin p → Fin p'} (hq : Function.Injective q)
    {aE aM : Fin n → ℝ} {bE bM : Fin p → ℝ} {fE fX gE gX : Matrix (Fin n) (Fin p) ℝ}
    {aE' aM' : Fin n' → ℝ} {bE' bM' : Fin p' → ℝ} {fE' fX' gE' gX' : Matrix (Fin n') (Fin p') ℝ}
    (ha : ∀ i, aE' (e i) = aE i) (ha' : ∀ i, aM' (e i) = aM i) (hb : ∀ i, bE' (q i) = bE i) (hb' : ∀ i, bM' (q i) = bM i)
    (hfE : fE' = (1 : ℝ) • (incl e * fE * (incl q)ᵀ)) (hfX : fX' = (-1 : ℝ) • (incl e * fX * (incl q)ᵀ))
    (hgE : gE' = (1 : ℝ) • (incl e * gE * (incl q)ᵀ)) (hgX : gX' = (-1 : ℝ) • (incl e * gX * (incl q)ᵀ)) :
    ∃ S : Matrix (Fin n' ⊕ Fin n') (Fin n ⊕ Fin n) ℝ, Sᵀ * S = 1 ∧
      roundTrip aE' aM' bE' bM' fE' fX' gE' gX' = S * roundTrip aE aM bE bM fE fX gE gX * Sᵀ := by
  set S := fromBlocks (incl e) 0 0 (-incl e) with hS
  set T := fromBlocks (incl q) 0 0 (-incl q) with hT
  have hSS : Sᵀ * S = 1 := by
    rw [hS, fromBlocks_transpose, fromBlocks_multiply]
    simp [incl_iso he]
  have hTT : Tᵀ * T = 1 := by
    rw [hT, fromBlocks_transpose, fromBlocks_multiply]
    simp [incl_iso hq]
  refine ⟨S, hSS, ?_⟩
  have hA : fromBlocks (diagonal aE') 0 0 (diagonal aM') * S = S * fromBlocks (diagonal aE) 0 0 (diagonal aM) := by
    rw [hS, fromBlocks_multiply, fromBlocks_multiply]
    simp [diag_incl e aE aE' ha, diag_incl e aM aM' ha']
  have hB : fromBlocks (diagonal bE') 0 0 (diagonal bM') * T = T * fromBlocks (diagonal bE) 0 0 (diagonal bM) := by
    rw [hT, fromBlocks_multiply, fromBlocks_multiply]
    simp [diag_incl q bE bE' hb, diag_incl q bM bM' hb']
  have hF : fromBlocks fE' fX' fX' fE' = S * fromBlocks fE fX fX fE * Tᵀ := by
    rw [hS, hT, fromBlocks_transpose, fromBlocks_multiply, fromBlocks_multiply, hfE, hfX]
    simp
  have hG : fromBlocks gE'ᵀ gX'ᵀ gX'ᵀ gE'ᵀ = T * fromBlocks gEᵀ gXᵀ gXᵀ gEᵀ * Sᵀ := by
    rw [hS, hT, fromBlocks_transpose, fromBlocks_multiply, fromBlocks_multiply, hgE, hgX]
    simp [transpose_mul, Matrix.mul_assoc]
  unfold roundTrip
  rw [hF, hG]
  generalize fromBlocks (diagonal aE) 0 0 (diagonal aM) = A at *
  generalize fromBlocks (diagonal aE') 0 0 (diagonal aM') = A' at *
  generalize fromBlocks (diagonal bE) 0 0 (diagonal bM) = B at *
  generalize fromBlocks (diagonal bE') 0 0 (diagonal bM') = B' at *
  generalize fromBlocks fE fX fX fE = F at *
  generalize fromBlocks gEᵀ gXᵀ gXᵀ gEᵀ = G at *
  calc A' * (S * F * Tᵀ) * B' * (T * G * Sᵀ)
      = (A' * S) * F * Tᵀ * (B' * T) * G * Sᵀ := by simp only [Matrix.mul_assoc]
    _ = S * A * F * (Tᵀ * T) * B * G * Sᵀ := by rw [hA, hB]; simp only [Matrix.mul_assoc]
    _ = S * (A * F * B * G) * Sᵀ := by rw [hTT]; simp only [Matrix.mul_assoc, Matrix.mul_one]

/-- Same determinant and traces after an isometric embedding. -/
theorem embed_same {ι κ : Type} [Fintype ι] [DecidableEq ι] [Fintype κ] [DecidableEq κ]
    (S : Matrix κ ι ℝ) (hS : Sᵀ * S = 1) (M : Matrix ι ι ℝ) :
    (1 - S * M * Sᵀ).det = (1 - M).det ∧ ∀ j : ℕ, ((S * M * Sᵀ) ^ (j + 1)).trace = (M ^ (j + 1)).trace := by
  constructor
  · rw [Matrix.mul_assoc, det_one_sub_mul_comm, Matrix.mul_assoc, hS, Matrix.mul_one]
  · intro j
    have : ∀ j : ℕ, (S * M * Sᵀ) ^ (j + 1) = S * M ^ (j + 1) * Sᵀ := by
      intro j
      induction j with
      | zero => simp
      | succ j ih =>
        rw [pow_succ, ih, pow_succ M (j + 1)]
        calc S * M ^ (j + 1) * Sᵀ * (S * M * Sᵀ) = S * M ^ (j + 1) * (Sᵀ * S) * M * Sᵀ := by simp only [Matrix.mul_assoc]
          _ = _ := by rw [hS, Matrix.mul_one]; simp only [Matrix.mul_assoc]
    rw [this, Matrix.mul_assoc, trace_mul_comm, Matrix.mul_assoc, hS, Matrix.mul_one]

theorem transLmin_pos {m : ℤ} (h : 1 ≤ m) : (transLmin m : ℤ) = m := by unfold transLmin; omega

theorem transLmin_nonpos {m : ℤ} (h : m ≤ 1) : transLmin m = 1 := by unfold transLmin; omega

/-- The elements computed by `roundTrip_elements`. -/
noncomputable def rtVal (lmax lssmax : ℕ) (m : ℤ) (ext : Bool) (nL : ℝ) (bes : List ℝ) (a b : MieCoef) :
    RTElems (lmax + 1 - transLmin m) (lssmax + 1 - transLmin m) where
  aTE := fun i => a.TE (transLmin m + i.1)
  aTM := fun i => a.TM (transLmin m + i.1)
  a2 := fun i => a.ln (transLmin m + i.1)
  bTE := fun j => b.TE (transLmin m + j.1)
  bTM := fun j => b.TM (transLmin m + j.1)
  b2 := fun j => b.ln (transLmin m + j.1)
  V0 := fun i j => (vVal ext m nL bes (transLmin m + i.1) (transLmin m + j.1)).EEab
  V1 := fun i j => (vVal ext m nL bes (transLmin m + i.1) (transLmin m + j.1)).EEba
  V2 := fun i j => (vVal ext m nL bes (transLmin m + i.1) (transLmin m + j.1)).EMab
  V3 := fun i j => (vVal ext m nL bes (transLmin m + i.1) (transLmin m + j.1)).EMba
  V4 := fun i j => (vVal ext m nL bes (transLmin m + i.1) (transLmin m + j.1)).sk

theorem roundTripElements_ok (lmax lssmax : ℕ) (m : ℤ) (ext : Bool) (nL : ℝ) {bes : List ℝ} (a b : MieCoef)
    (h : lmax + lssmax < bes.length) :
    roundTripElements lmax lssmax m ext nL bes a b = .ok (rtVal lmax lssmax m ext nL bes a b) := by
  unfold roundTripElements
  rw [transAb_ok _ _ _ _ _ h, ok_bind]
  rfl

/-- **C12.** The blocks computed with `-m` (all multipoles from `l = 1` on) and with `m ≥ 1` (multipoles from
`l = m` on) have the same determinant `det(1 - M)` and the same traces of powers; Mie coefficients, distance,
wavenumber, medium (through `nL` and the Bessel table) are arbitrary. -/
theorem C12_negative_m {lmax lssmax : ℕ} {m : ℤ} (hm : 1 ≤ m) {ext : Bool} {nL : ℝ} {bes : List ℝ} {a b : MieCoef}
    (h : lmax + lssmax < bes.length)
    {B : Blocks (lmax + 1 - transLmin m)} {B' : Blocks (lmax + 1 - transLmin (-m))}
    (hB : blockmatricesAt lmax lssmax m ext nL bes a b = .ok B)
    (hB' : blockmatricesAt lmax lssmax (-m) ext nL bes a b = .ok B') :
    (1 - fromBlocks B.EE B.EM B.ME B.MM).det = (1 - fromBlocks B'.EE B'.EM B'.ME B'.MM).det ∧
    ∀ j : ℕ, ((fromBlocks B.EE B.EM B.ME B.MM) ^ (j + 1)).trace =
      ((fromBlocks B'.EE B'.EM B'.ME B'.MM) ^ (j + 1)).trace := by
  unfold blockmatricesAt at hB hB'
  rw [roundTripElements_ok _ _ _ _ _ _ _ h, ok_bind] at hB hB'
  have c := C11_blockmatrices_operator hB
  have c' := C11_blockmatrices_operator hB'
  have hl := transLmin_pos hm
  have hl' : transLmin (-m) = 1 := transLmin_nonpos (by omega)
  let e : Fin (lmax + 1 - transLmin m) → Fin (lmax + 1 - transLmin (-m)) :=
    fun i => ⟨transLmin m + i.1 - transLmin (-m), by have := i.2; omega⟩
  let q : Fin (lssmax + 1 - transLmin m) → Fin (lssmax + 1 - transLmin (-m)) :=
    fun i => ⟨transLmin m + i.1 - transLmin (-m), by have := i.2; omega⟩
  have he : ∀ i, transLmin (-m) + (e i).1 = transLmin m + i.1 := by
    intro i; simp only [e]; omega
  have hq : ∀ i, transLmin (-m) + (q i).1 = transLmin m + i.1 := by
    intro i; simp only [q]; omega
  have hei : Function.Injective e := by
    intro i j hij
    have h1 := he i; have h2 := he j
    rw [hij] at h1
    exact Fin.ext (by omega)
  have hqi : Function.Injective q := by
    intro i j hij
    have h1 := hq i; have h2 := hq j
    rw [hij] at h1
    exact Fin.ext (by omega)
  have heo : ∀ i', (∀ i, i' ≠ e i) → transLmin (-m) + i'.1 < m.natAbs := by
    intro i' hi'
    by_contra hlt
    have hi2 := i'.2
    refine hi' ⟨transLmin (-m) + i'.1 - transLmin m, by omega⟩ (Fin.ext ?_)
    simp only [e]; omega
  have hqo : ∀ i', (∀ i, i' ≠ q i) → transLmin (-m) + i'.1 < m.natAbs := by
    intro i' hi'
    by_contra hlt
    have hi2 := i'.2
    refine hi' ⟨transLmin (-m) + i'.1 - transLmin m, by omega⟩ (Fin.ext ?_)
    simp only [q]; omega
  have hz : ∀ (i' : Fin (lmax + 1 - transLmin (-m))) (s' : Fin (lssmax + 1 - transLmin (-m))),
      (∀ i, i' ≠ e i) ∨ (∀ s, s' ≠ q s) →
      vVal ext (-m) nL bes (transLmin (-m) + i'.1) (transLmin (-m) + s'.1) =
        ⟨0, 0, 0, 0, besNorm ext bes (transLmin (-m) + i'.1) (transLmin (-m) + s'.1)⟩ := by
    intro i' s' hor
    refine vVal_big ext nL bes ?_
    rw [Int.natAbs_neg]
    rcases hor with h1 | h1
    · have := heo i' h1; omega
    · have := hqo s' h1; omega
  have hv : ∀ i s, vVal ext (-m) nL bes (transLmin (-m) + (e i).1) (transLmin (-m) + (q s).1) =
      ⟨(vVal ext m nL bes (transLmin m + i.1) (transLmin m + s.1)).EEab,
       (vVal ext m nL bes (transLmin m + i.1) (transLmin m + s.1)).EEba,
       -(vVal ext m nL bes (transLmin m + i.1) (transLmin m + s.1)).EMab,
       -(vVal ext m nL bes (transLmin m + i.1) (transLmin m + s.1)).EMba,
       (vVal ext m nL bes (transLmin m + i.1) (transLmin m + s.1)).sk⟩ := by
    intro i s
    rw [he, hq, vVal_neg]
  obtain ⟨S, hS, hR⟩ := roundTrip_padded hei hqi
    (aE := fun l => (rtVal lmax lssmax m ext nL bes a b).aTE l * Real.exp ((rtVal lmax lssmax m ext nL bes a b).a2 l))
    (aM := fun l => (rtVal lmax lssmax m ext nL bes a b).aTM l * Real.exp ((rtVal lmax lssmax m ext nL bes a b).a2 l))
    (bE := fun l => (rtVal lmax lssmax m ext nL bes a b).bTE l * Real.exp ((rtVal lmax lssmax m ext nL bes a b).b2 l))
    (bM := fun l => (rtVal lmax lssmax m ext nL bes a b).bTM l * Real.exp ((rtVal lmax lssmax m ext nL bes a b).b2 l))
    (aE' := fun l => (rtVal lmax lssmax (-m) ext nL bes a b).aTE l * Real.exp ((rtVal lmax lssmax (-m) ext nL bes a b).a2 l))
    (aM' := fun l => (rtVal lmax lssmax (-m) ext nL bes a b).aTM l * Real.exp ((rtVal lmax lssmax (-m) ext nL bes a b).a2 l))
    (bE' := fun l => (rtVal lmax lssmax (-m) ext nL bes a b).bTE l * Real.exp ((rtVal lmax lssmax (-m) ext nL bes a b).b2 l))
    (bM' := fun l => (rtVal lmax lssmax (-m) ext nL bes a b).bTM l * Real.exp ((rtVal lmax lssmax (-m) ext nL bes a b).b2 l))
    (fun i => by simp only [rtVal, he]) (fun i => by simp only [rtVal, he])
    (fun i => by simp only [rtVal, hq]) (fun i => by simp only [rtVal, hq])
    (padded hei hqi 1 (of fun l s => (rtVal lmax lssmax m ext nL bes a b).V0 l s * Real.exp ((rtVal lmax lssmax m ext nL bes a b).V4 l s))
      (of fun l s => (rtVal lmax lssmax (-m) ext nL bes a b).V0 l s * Real.exp ((rtVal lmax lssmax (-m) ext nL bes a b).V4 l s))
      (fun i s => by simp only [rtVal, of_apply, hv]; ring)
      (fun i s h0 => by simp only [rtVal, of_apply, hz i s (.inl h0)]; ring)
      (fun i s h0 => by simp only [rtVal, of_apply, hz i s (.inr h0)]; ring))
    (padded hei hqi (-1) (of fun l s => (rtVal lmax lssmax m ext nL bes a b).V2 l s * Real.exp ((rtVal lmax lssmax m ext nL bes a b).V4 l s))
      (of fun l s => (rtVal lmax lssmax (-m) ext nL bes a b).V2 l s * Real.exp ((rtVal lmax lssmax (-m) ext nL bes a b).V4 l s))
      (fun i s => by simp only [rtVal, of_apply, hv]; ring)
      (fun i s h0 => by simp only [rtVal, of_apply, hz i s (.inl h0)]; ring)
      (fun i s h0 => by simp only [rtVal, of_apply, hz i s (.inr h0)]; ring))
    (padded hei hqi 1 (of fun l s => (rtVal lmax lssmax m ext nL bes a b).V1 l s * Real.exp ((rtVal lmax lssmax m ext nL bes a b).V4 l s))
      (of fun l s => (rtVal lmax lssmax (-m) ext nL bes a b).V1 l s * Real.exp ((rtVal lmax lssmax (-m) ext nL bes a b).V4 l s))
      (fun i s => by simp only [rtVal, of_apply, hv]; ring)
      (fun i s h0 => by simp only [rtVal, of_apply, hz i s (.inl h0)]; ring)
      (fun i s h0 => by simp only [rtVal, of_apply, hz i s (.inr h0)]; ring))
    (padded hei hqi (-1) (of fun l s => (rtVal lmax lssmax m ext nL bes a b).V3 l s * Real.exp ((rtVal lmax lssmax m ext nL bes a b).V4 l s))
      (of fun l s => (rtVal lmax lssmax (-m) ext nL bes a b).V3 l s * Real.exp ((rtVal lmax lssmax (-m) ext nL bes a b).V4 l s))
      (fun i s => by simp only [rtVal, of_apply, hv]; ring)
      (fun i s h0 => by simp only [rtVal, of_apply, hz i s (.inl h0)]; ring)
      (fun i s h0 => by simp only [rtVal, of_apply, hz i s (.inr h0)]; ring))
  have key := embed_same S hS (roundTrip
    (fun l => (rtVal lmax lssmax m ext nL bes a b).aTE l * Real.exp ((rtVal lmax lssmax m ext nL bes a b).a2 l))
    (fun l => (rtVal lmax lssmax m ext nL bes a b).aTM l * Real.exp ((rtVal lmax lssmax m ext nL bes a b).a2 l))
    (fun l => (rtVal lmax lssmax m ext nL bes a b).bTE l * Real.exp ((rtVal lmax lssmax m ext nL bes a b).b2 l))
    (fun l => (rtVal lmax lssmax m ext nL bes a b).bTM l * Real.exp ((rtVal lmax lssmax m ext nL bes a b).b2 l))
    (of fun l s => (rtVal lmax lssmax m ext nL bes a b).V0 l s * Real.exp ((rtVal lmax lssmax m ext nL bes a b).V4 l s))
    (of fun l s => (rtVal lmax lssmax m ext nL bes a b).V2 l s * Real.exp ((rtVal lmax lssmax m ext nL bes a b).V4 l s))
    (of fun l s => (rtVal lmax lssmax m ext nL bes a b).V1 l s * Real.exp ((rtVal lmax lssmax m ext nL bes a b).V4 l s))
    (of fun l s => (rtVal lmax lssmax m ext nL bes a b).V3 l s * Real.exp ((rtVal lmax lssmax m ext nL bes a b).V4 l s)))
  rw [← hR] at key
  refine ⟨?_, fun j => ?_⟩
  · rw [c.det, c'.det, key.1]
  · rw [c.tr, c'.tr, key.2]

/-- **C12.** Both sides of `C12_negative_m` are defined whenever `1 ≤ m ≤ lmax, lssmax`. -/
theorem C12_total {lmax lssmax : ℕ} {m : ℤ} (hm : 1 ≤ m) (h1 : m ≤ lmax) (h2 : m ≤ lssmax) (ext : Bool) (nL : ℝ)
    {bes : List ℝ} (a b : MieCoef) (h : lmax + lssmax < bes.length) :
    (∃ B, blockmatricesAt lmax lssmax m ext nL bes a b = .ok B) ∧
    ∃ B, blockmatricesAt lmax lssmax (-m) ext nL bes a b = .ok B := by
  have hl := transLmin_pos hm
  have hl' : transLmin (-m) = 1 := transLmin_nonpos (by omega)
  unfold blockmatricesAt
  rw [roundTripElements_ok _ _ _ _ _ _ _ h, ok_bind, roundTripElements_ok _ _ _ _ _ _ _ h, ok_bind]
  exact ⟨C11_blockmatrices_total (by omega) (by omega) _, C11_blockmatrices_total (by omega) (by omega) _⟩

example : ∃ B, blockmatricesAt 3 4 (-2) true 1 (List.replicate 9 0) ⟨fun l => l, fun _ => 1, fun _ => 0⟩
    ⟨fun _ => -1, fun l => l + 2, fun l => -l⟩ = .ok B :=
  (C12_total (lmax := 3) (lssmax := 4) (m := 2) (by norm_num) (by norm_num) (by norm_num) _ _ _ _ (by simp)).2

/-- **C12**, zero frequency: the coefficients of `trans_k0_ext` enter the round trip only through the product of two
signs and through `ln`; both are the same for `m` and `-m`. -/
theorem C12_zero_frequency (m : ℤ) (l1 l2 s : ℕ) :
    (transK0Ext (-m) l1 s).1 * (transK0Ext (-m) l2 s).1 = (transK0Ext m l1 s).1 * (transK0Ext m l2 s).1 ∧
    (transK0Ext (-m) l1 s).2 = (transK0Ext m l1 s).2 ∧ (transK0Int (-m) l1 s) = transK0Int m l1 s := by
  refine ⟨?_, ?_, ?_⟩
  · simp only [transK0Ext, neg_one_zpow_neg]
  · simp only [transK0Ext, Int.cast_neg, sub_neg_eq_add, ← sub_eq_add_neg]
    ring
  · simp only [transK0Int, Int.cast_neg, sub_neg_eq_add, ← sub_eq_add_neg]
    congr 1
    ring

/-- The zero-frequency elements for the multipoles from `l = n` on, with the translation coefficients of the azimuthal number `m`. -/
noncomputable def k0ElemsFrom (n lmax lssmax : ℕ) (m : ℤ) (a b : MieCoef) : K0Elems (lmax + 1 - n) (lssmax + 1 - n) where
  lmin := n
  aTE := fun i => a.TE (n + i.1)
  aTM := fun i => a.TM (n + i.1)
  aLn := fun i => a.ln (n + i.1)
  bTE := fun j => b.TE (n + j.1)
  bTM := fun j => b.TM (n + j.1)
  bLn := fun j => b.ln (n + j.1)
  vSgn := fun i j => (transK0Ext m (n + i.1) (n + j.1)).1
  vLn := fun i j => (transK0Ext m (n + i.1) (n + j.1)).2

/-- **C12**, zero frequency: the blocks that `blockmatrices_k0_ext` assembles for `m` are also those of `-m` for the same
multipoles (those with `l ≥ |m|`). -/
theorem C12_zero_blocks (lmax lssmax : ℕ) (m : ℤ) (r1 r2 L : ℝ) (a b : MieCoef) :
    blockmatricesK0At lmax lssmax m r1 r2 L a b =
      blockmatricesK0Ext r1 r2 L (k0ElemsFrom (transLmin m) lmax lssmax (-m) a b) := by
  unfold blockmatricesK0At blockmatricesK0Ext k0ElemsFrom
  simp only [fun l1 s => (C12_zero_frequency m l1 l1 s).2.1]
  congr 1
  funext mag
  have e : ∀ (i j : ℕ) (s : ℕ) (x y z : ℝ), x * (transK0Ext (-m) i s).1 * (transK0Ext (-m) j s).1 * y * z =
      x * (transK0Ext m i s).1 * (transK0Ext m j s).1 * y * z := by
    intro i j s x y z
    rw [mul_assoc x, (C12_zero_frequency m i j s).1, ← mul_assoc x]
  simp only [e]

end CasSph
