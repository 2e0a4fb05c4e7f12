import Verif.Model.Blocks
import Verif.Spec.Blocks
import Verif.Lemmas.LinAlg

namespace CasSph

open scoped Classical
open Spec Matrix

/-- Conjugation by an invertible diagonal matrix. -/
theorem sameRoundTrip_of_diag {ι : Type*} [Fintype ι] [DecidableEq ι] {M N : Matrix ι ι ℝ}
    (d : ι → ℝ) (hd : ∀ i, d i ≠ 0) (h : ∀ i j, N i j = d i * M i j * (d j)⁻¹) :
    SameRoundTrip N M := by
  have hinv : diagonal (fun i => (d i)⁻¹) * diagonal d = 1 := by
    rw [diagonal_mul_diagonal]
    have : (fun i => (d i)⁻¹ * d i) = fun _ => 1 := funext fun i => inv_mul_cancel₀ (hd i)
    rw [this]; exact diagonal_one
  have hinv' := mul_eq_one_comm.1 hinv
  have hN : N = diagonal d * M * diagonal (fun i => (d i)⁻¹) := by
    ext i j; rw [mul_diagonal, diagonal_mul, h]
  have hpow : ∀ k : ℕ, N ^ k = diagonal d * M ^ k * diagonal (fun i => (d i)⁻¹) := by
    intro k
    induction k with
    | zero => rw [pow_zero, pow_zero, mul_one, hinv']
    | succ k ih =>
      rw [pow_succ, ih, hN, pow_succ]
      calc diagonal d * M ^ k * diagonal (fun i => (d i)⁻¹) *
            (diagonal d * M * diagonal fun i => (d i)⁻¹)
          = diagonal d * M ^ k * (diagonal (fun i => (d i)⁻¹) * diagonal d) * M *
            diagonal (fun i => (d i)⁻¹) := by simp only [Matrix.mul_assoc]
        _ = _ := by rw [hinv, mul_one]; simp only [Matrix.mul_assoc]
  refine ⟨?_, fun j => ?_⟩
  · have : 1 - N = diagonal d * (1 - M) * diagonal (fun i => (d i)⁻¹) := by
      rw [mul_sub, sub_mul, mul_one, hinv', ← hN]
    rw [this, det_mul, det_mul]
    have hdet := congrArg det hinv
    rw [det_mul, det_one] at hdet
    linear_combination (1 - M).det * hdet
  · rw [hpow, trace_mul_comm, ← Matrix.mul_assoc, hinv, one_mul]

theorem SameRoundTrip.refl {ι : Type*} [Fintype ι] [DecidableEq ι] (M : Matrix ι ι ℝ) :
    SameRoundTrip M M := ⟨rfl, fun _ => rfl⟩

theorem SameRoundTrip.trans {ι : Type*} [Fintype ι] [DecidableEq ι] {M N P : Matrix ι ι ℝ}
    (h : SameRoundTrip M N) (h' : SameRoundTrip N P) : SameRoundTrip M P :=
  ⟨h.det.trans h'.det, fun j => (h.tr j).trans (h'.tr j)⟩

/-- `M = D X` and `G = X D` for a diagonal matrix `D`. -/
def Fac {ι : Type*} [Fintype ι] [DecidableEq ι] (M G : Matrix ι ι ℝ) : Prop :=
  ∃ (D : ι → ℝ) (X : Matrix ι ι ℝ), M = diagonal D * X ∧ X * diagonal D = G

/-- Conjugation by an invertible diagonal matrix. -/
theorem Fac.of_diag {ι : Type*} [Fintype ι] [DecidableEq ι] {M N G : Matrix ι ι ℝ} (h : Fac M G) (d : ι → ℝ) (hd : ∀ i, d i ≠ 0)
    (e : ∀ i j, N i j = d i * M i j * (d j)⁻¹) : Fac N G := by
  obtain ⟨D, X, rfl, rfl⟩ := h
  refine ⟨fun i => d i * D i, X * diagonal fun j => (d j)⁻¹, ?_, ?_⟩
  · ext i j
    rw [e, diagonal_mul, diagonal_mul, mul_diagonal]
    ring
  · ext i j
    rw [mul_diagonal, mul_diagonal, mul_diagonal]
    have := hd j
    field_simp

variable {n p : ℕ}

theorem singleKScale_add_two {k : ℕ} (X : Fin (k + 2) → Fin (k + 2) → Fin p → ℝ) :
    singleKScale X = scaleSlope X >>= fun a =>
      .ok fun l1 l2 s => a * ((l1.1 + 1 : ℝ) - (l2.1 + 1)) + X l1 l2 s := rfl

theorem scaleSlope_some {k : ℕ} {X : Fin (k + 2) → Fin (k + 2) → Fin p → ℝ} {o : Fin p}
    (h : npArgmax (X 0 (Fin.last (k + 1))) = some o) :
    scaleSlope X = .ok (if X (Fin.last (k + 1)) 0 o > X 0 (Fin.last (k + 1)) o then
      -(|X 0 0 o - max (X 0 (Fin.last (k + 1)) o) (X (Fin.last (k + 1)) 0 o)| * (1 / ((k : ℝ) + 1)))
      else |X 0 0 o - max (X 0 (Fin.last (k + 1)) o) (X (Fin.last (k + 1)) 0 o)| *
        (1 / ((k : ℝ) + 1))) := by
  unfold scaleSlope; rw [h]

/-- `single_k_scale` adds `a·(l₁-l₂)` for some `a`. -/
theorem singleKScale_spec {X Y : Fin n → Fin n → Fin p → ℝ} (h : singleKScale X = .ok Y) :
    ∃ a : ℝ, ∀ l1 l2 s, Y l1 l2 s = a * ((l1.1 : ℝ) - l2.1) + X l1 l2 s := by
  match n, X, Y, h with
  | 0, _, _, h => cases h
  | 1, X, Y, h =>
    cases h
    exact ⟨0, fun l1 l2 s => by simp⟩
  | k + 2, X, Y, h =>
    rw [singleKScale_add_two] at h
    cases ha : scaleSlope X with
    | error e => rw [ha] at h; cases h
    | ok a =>
      rw [ha, ok_bind] at h
      cases h
      exact ⟨a, fun l1 l2 s => by ring⟩

theorem dynamicScaling_spec {X skal : Fin n → Fin n → Fin p → ℝ} (h : dynamicScaling X = .ok skal) :
    ∃ a : ℝ, ∀ l1 l2 s,
      skal l1 l2 s = Real.exp (a * l1.1) * Real.exp (X l1 l2 s) * (Real.exp (a * l2.1))⁻¹ := by
  unfold dynamicScaling at h
  cases hY : singleKScale X with
  | error e => rw [hY] at h; cases h
  | ok Y =>
    rw [hY] at h
    cases h
    obtain ⟨a, ha⟩ := singleKScale_spec hY
    refine ⟨a, fun l1 l2 s => ?_⟩
    show Real.exp (Y l1 l2 s) = _
    rw [ha, ← Real.exp_neg, ← Real.exp_add, ← Real.exp_add]
    congr 1; ring

theorem k0Mag_of_pos (hn : 0 < n) (X : Fin n → Fin n → Fin p → ℝ) : k0Mag X = dynamicScaling X := by
  cases n with
  | zero => omega
  | succ n => rfl

theorem dynamicScaling_ok (hn : 0 < n) (hp : 0 < p) (X : Fin n → Fin n → Fin p → ℝ) :
    ∃ skal, dynamicScaling X = .ok skal := by
  unfold dynamicScaling
  match n, X with
  | 1, X => exact ⟨_, rfl⟩
  | k + 2, X =>
    rw [singleKScale_add_two]
    cases h : npArgmax (X 0 (Fin.last (k + 1))) with
    | none =>
      unfold npArgmax at h
      rw [List.argmax_eq_none] at h
      exact absurd (List.finRange_eq_nil_iff.1 h) (by omega)
    | some o => rw [scaleSlope_some h]; exact ⟨_, rfl⟩

theorem sumSs_scaled {X skal : Fin n → Fin n → Fin p → ℝ} {a : ℝ}
    (h : ∀ l1 l2 s,
      skal l1 l2 s = Real.exp (a * l1.1) * Real.exp (X l1 l2 s) * (Real.exp (a * l2.1))⁻¹)
    (c : Fin n → Fin n → Fin p → ℝ) (l1 l2 : Fin n) :
    sumSs skal c l1 l2 = Real.exp (a * l1.1) *
      sumSs (fun l1 l2 s => Real.exp (X l1 l2 s)) c l1 l2 * (Real.exp (a * l2.1))⁻¹ := by
  unfold sumSs
  rw [Finset.mul_sum, Finset.sum_mul]
  refine Finset.sum_congr rfl fun s _ => ?_
  rw [h]; ring

end CasSph
