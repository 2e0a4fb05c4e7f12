import Verif.Lemmas.Truncation
import Verif.Lemmas.CavityShift
import Verif.Lemmas.FiniteGram
import Verif.Lemmas.GramSign

/-! The kernel of a sphere inside a cavity is a contraction with finite Hilbert-Schmidt norm. -/

namespace CasSph

open Spec Matrix

/-- translation coefficients between regular waves by degree minus one -/
noncomputable def tIs (m : ℕ) (x : ℝ) (P Q : Bool) (c c' : ℕ) : ℝ := tI m x P Q (c + 1) (c' + 1)

theorem tIs_sym (m : ℕ) (x : ℝ) (a b : ℕ) :
    tIs m x true false a b = tIs m x false true a b ∧ tIs m x true true a b = tIs m x false false a b :=
  ⟨tI_flip m x false true _ _, tI_flip m x false false _ _⟩

/-- regular waves weighted with the reflection coefficients of the sphere (`A`) and of the wall (`B`) -/
noncomputable abbrev kernC (m : ℕ) (x : ℝ) (c0 : ℕ) (A B : Bool → ℕ → ℝ) : ℕ → ℕ → ℝ := kernOf (tIs m x) c0 A B

/-- modulus of the reflection coefficient of a perfectly conducting wall -/
noncomputable def cavR (P : Bool) (c : ℕ) (ρ : ℝ) : ℝ := (pecR P c ρ)⁻¹

theorem cavR_eq (P : Bool) (c : ℕ) {ρ : ℝ} (hρ : 0 < ρ) : cavR P c ρ = 2 / Real.pi * cavB P c ρ := by
  have h := cavB_pecR P c hρ
  have h1 := (pecR_pos P c hρ).ne'
  have := Real.pi_pos.ne'
  unfold cavR
  field_simp
  linarith

theorem cavR_pos (P : Bool) (c : ℕ) {ρ : ℝ} (hρ : 0 < ρ) : 0 < cavR P c ρ := inv_pos.mpr (pecR_pos P c hρ)

/-- `shift_energy`, possibly with exchanged polarisations. -/
theorem shift_energy_flip {m c0 : ℕ} (hm : m ≤ c0 + 1) (hc : c0 = 0 ∨ c0 + 1 = m) (n p : ℕ) (fl : Bool) (u : Bool → ℕ → ℝ)
    {y X : ℝ} (hy : 0 < y) (hX : 0 < X) :
    ∑ s ∈ Finset.range p, (cavR (xor fl false) (c0 + s) (y + X) * shV m c0 n u false s X ^ 2 +
        cavR (xor fl true) (c0 + s) (y + X) * shV m c0 n u true s X ^ 2) ≤
      ∑ r ∈ Finset.range n, (cavR (xor fl false) (c0 + r) y * u false r ^ 2 + cavR (xor fl true) (c0 + r) y * u true r ^ 2) := by
  have hyX : 0 < y + X := by linarith
  have hpi : 0 ≤ 2 / Real.pi := by have := Real.pi_pos; positivity
  simp only [cavR_eq _ _ hyX, cavR_eq _ _ hy, mul_assoc, ← mul_add]
  rw [← Finset.mul_sum, ← Finset.mul_sum]
  refine mul_le_mul_of_nonneg_left ?_ hpi
  cases fl with
  | false => exact shift_energy hm hc n p u hy hX
  | true =>
    have h := shift_energy hm hc n p (fun P => u !P) hy hX
    have e : ∀ P s, shV m c0 n (fun P => u !P) P s X = shV m c0 n u (!P) s X := by
      intro P s
      unfold shV
      refine Finset.sum_congr rfl fun r _ => ?_
      rw [← tI_flip m X false P, ← tI_flip m X true P]
      simp only [Bool.not_false, Bool.not_true]
      ring
    simp only [e, Bool.not_false, Bool.not_true] at h
    simp only [Bool.xor_false, Bool.xor_true, Bool.not_true]
    simp only [add_comm (cavB true _ _ * _)]
    exact h

/-- Energy estimate for the kernel. -/
theorem kernC_energy {m c0 : ℕ} (hm : m ≤ c0 + 1) (hc : c0 = 0 ∨ c0 + 1 = m) {y x : ℝ} (hy : 0 < y) (hx : 0 < x) (fl : Bool)
    {A B : Bool → ℕ → ℝ} (hA : ∀ P c, 0 ≤ A P c) (hB0 : ∀ P c, 0 ≤ B P c) (hB : ∀ P c, B P c ≤ cavR (xor fl P) c (y + x)) (n p : ℕ) (z : Fin n → ℝ) :
    ∑ s : Fin p, (∑ i, z i * corner (kernC m x c0 A B) n p i s) ^ 2 ≤
      ∑ i : Fin n, cavR (xor fl i.1.bodd) (c0 + i.1.div2) y * A i.1.bodd (c0 + i.1.div2) * z i ^ 2 := by
  set ζ : ℕ → ℝ := fun i => if h : i < n then z ⟨i, h⟩ else 0 with hζ
  have hz : ∀ i : Fin n, z i = ζ i.1 := fun i => by simp [hζ]
  set ix : Bool → ℕ → ℕ := fun P r => 2 * r + bif P then 1 else 0 with hix
  have hixx : ∀ i : ℕ, ix i.bodd i.div2 = i := by
    intro i
    have := Nat.bodd_add_div2 i
    rw [hix]
    simp only
    cases h : i.bodd <;> rw [h] at this <;> simp at this ⊢ <;> omega
  set u : Bool → ℕ → ℝ := fun P r => Real.sqrt (A P (c0 + r)) * ζ (ix P r) with hu
  have hrow : ∀ s : ℕ, ∑ i : Fin n, z i * kernC m x c0 A B i.1 s = Real.sqrt (B s.bodd (c0 + s.div2)) * shV m c0 n u s.bodd s.div2 x := by
    intro s
    have e1 : ∑ i : Fin n, z i * kernC m x c0 A B i.1 s = ∑ i ∈ Finset.range (2 * n), ζ i * kernC m x c0 A B i s := by
      simp only [hz]
      rw [← Finset.sum_range (n := n) (fun i => ζ i * kernC m x c0 A B i s)]
      refine Finset.sum_subset (Finset.range_mono (by omega)) fun i _ hi => ?_
      rw [Finset.mem_range, not_lt] at hi
      simp [hζ, not_lt.mpr hi]
    have e2 : ∀ i : ℕ, ζ i * kernC m x c0 A B i s =
        (fun P r => Real.sqrt (B s.bodd (c0 + s.div2)) * (tI m x P s.bodd (c0 + r + 1) (c0 + s.div2 + 1) * u P r)) i.bodd i.div2 := by
      intro i
      simp only [hu, hixx, kernC, kernOf, tIs]
      ring
    rw [e1, Finset.sum_congr rfl fun i _ => e2 i,
      sum_interleave (fun P r => Real.sqrt (B s.bodd (c0 + s.div2)) * (tI m x P s.bodd (c0 + r + 1) (c0 + s.div2 + 1) * u P r)), shV, Finset.mul_sum]
    refine Finset.sum_congr rfl fun r _ => ?_
    ring
  have hl : ∑ s : Fin p, (∑ i, z i * corner (kernC m x c0 A B) n p i s) ^ 2 ≤
      ∑ s ∈ Finset.range p, (cavR (xor fl false) (c0 + s) (y + x) * shV m c0 n u false s x ^ 2 +
        cavR (xor fl true) (c0 + s) (y + x) * shV m c0 n u true s x ^ 2) := by
    refine le_trans ?_ (sum_interleave_le (f := fun P s => cavR (xor fl P) (c0 + s) (y + x) * shV m c0 n u P s x ^ 2)
      (fun P s => mul_nonneg (cavR_pos _ _ (by linarith)).le (sq_nonneg _)) p)
    refine Finset.sum_le_sum fun s _ => ?_
    have : ∑ i, z i * corner (kernC m x c0 A B) n p i s = ∑ i : Fin n, z i * kernC m x c0 A B i.1 s.1 := rfl
    rw [this, hrow, mul_pow, Real.sq_sqrt (hB0 _ _)]
    exact mul_le_mul_of_nonneg_right (hB _ _) (sq_nonneg _)
  refine hl.trans ((shift_energy_flip hm hc n p fl u hy hx).trans (le_of_eq ?_))
  rw [← sum_interleave fun P r => cavR (xor fl P) (c0 + r) y * u P r ^ 2]
  symm
  simp only [hz]
  rw [← Finset.sum_range (n := n) (fun i => cavR (xor fl i.bodd) (c0 + i.div2) y * A i.bodd (c0 + i.div2) * ζ i ^ 2)]
  refine (Finset.sum_subset (Finset.range_mono (by omega : n ≤ 2 * n)) fun i _ hi => ?_).trans (Finset.sum_congr rfl fun i _ => ?_)
  · rw [Finset.mem_range, not_lt] at hi
    simp [hζ, not_lt.mpr hi]
  · simp only [hu, hixx]
    rw [mul_pow, Real.sq_sqrt (hA _ _), mul_assoc]

/-- Amplitude of the sphere compared with that of a wall of radius `y`. -/
theorem cav_amp {ρ y : ℝ} (hρ : 0 < ρ) (hy : ρ ≤ y) (P : Bool) (c : ℕ) {a : ℝ} (ha : a ≤ pecR P c ρ) :
    cavR P c y * a ≤ (ρ / y) ^ c * Real.exp (-(y - ρ)) := by
  have hy0 : 0 < y := hρ.trans_le hy
  have h := pecR_scale P c (q := ρ / y) (div_pos hρ hy0) ((div_le_one hy0).mpr hy) hy0
  rw [div_mul_cancel₀ _ hy0.ne'] at h
  have h1 := pecR_pos P c hy0
  unfold cavR
  rw [inv_mul_le_iff₀ h1]
  calc a ≤ _ := ha.trans h
    _ = _ := by ring

/-- Hilbert-Schmidt norm. -/
theorem kernC_hs {m c0 : ℕ} (hm : m ≤ c0 + 1) (hc : c0 = 0 ∨ c0 + 1 = m) {ρ y x : ℝ} (hρ : 0 < ρ) (hy : ρ < y) (hx : 0 < x) (fl : Bool) {C : ℝ} (hC : 0 ≤ C)
    {A B : Bool → ℕ → ℝ} (hA0 : ∀ P c, 0 ≤ A P c) (hA : ∀ P c, A P c ≤ C * pecR (xor fl P) c ρ)
    (hB0 : ∀ P c, 0 ≤ B P c) (hB : ∀ P c, B P c ≤ cavR (xor fl P) c (y + x)) (n p : ℕ) :
    ∑ i, ∑ s, corner (kernC m x c0 A B) n p i s ^ 2 ≤ C * (Real.exp (-(y - ρ)) * (2 * (ρ / y) ^ c0 / (1 - ρ / y))) := by
  have hy0 : 0 < y := hρ.trans hy
  set q := ρ / y with hq
  have hq0 : 0 < q := div_pos hρ hy0
  have hq1 : q < 1 := (div_lt_one hy0).mpr hy
  have hrow : ∀ i : Fin n, ∑ s, corner (kernC m x c0 A B) n p i s ^ 2 ≤ C * Real.exp (-(y - ρ)) * q ^ (c0 + i.1.div2) := by
    intro i
    have h := kernC_energy hm hc hy0 hx fl hA0 hB0 hB n p (Pi.single i 1)
    have e1 : ∀ s, ∑ j, (Pi.single i 1 : Fin n → ℝ) j * corner (kernC m x c0 A B) n p j s = corner (kernC m x c0 A B) n p i s := by
      intro s
      rw [Finset.sum_eq_single i (fun j _ hj => by rw [Pi.single_eq_of_ne hj, zero_mul]) (by simp), Pi.single_eq_same, one_mul]
    simp only [e1] at h
    refine h.trans ?_
    rw [Finset.sum_eq_single i (fun j _ hj => by rw [Pi.single_eq_of_ne hj]; ring) (by simp), Pi.single_eq_same, one_pow, mul_one]
    have h1 := mul_le_mul_of_nonneg_left (hA i.1.bodd (c0 + i.1.div2)) (cavR_pos (xor fl i.1.bodd) (c0 + i.1.div2) hy0).le
    have h2 := mul_le_mul_of_nonneg_left (cav_amp hρ hy.le (xor fl i.1.bodd) (c0 + i.1.div2) le_rfl) hC
    rw [← hq] at h2
    linarith
  refine (Finset.sum_le_sum fun i _ => hrow i).trans ?_
  refine (sum_interleave_le (f := fun _ r => C * Real.exp (-(y - ρ)) * q ^ (c0 + r)) (fun _ r => by positivity) n).trans ?_
  have hg : ∑ r ∈ Finset.range n, q ^ r ≤ 1 / (1 - q) := by
    rw [one_div, ← tsum_geometric_of_lt_one hq0.le hq1]
    exact (summable_geometric_of_lt_one hq0.le hq1).sum_le_tsum _ fun _ _ => by positivity
  have e : ∑ r ∈ Finset.range n, (C * Real.exp (-(y - ρ)) * q ^ (c0 + r) + C * Real.exp (-(y - ρ)) * q ^ (c0 + r)) =
      2 * C * Real.exp (-(y - ρ)) * q ^ c0 * ∑ r ∈ Finset.range n, q ^ r := by
    rw [Finset.mul_sum]
    refine Finset.sum_congr rfl fun r _ => ?_
    rw [pow_add]; ring
  rw [e]
  refine (mul_le_mul_of_nonneg_left hg (by positivity)).trans (le_of_eq ?_)
  ring

/-- The same for small arguments. -/
theorem cav_amp_static {ρ y : ℝ} (hρ : 0 < ρ) (hy : ρ ≤ y) (P : Bool) (c : ℕ) {a : ℝ} (ha : a ≤ pecR P c ρ) : cavR P c y * a ≤ ρ / y := by
  have hy0 : 0 < y := hρ.trans_le hy
  have q0 := div_pos hρ hy0
  have q1 := (div_le_one hy0).mpr hy
  have h := pecR_power P c q0 q1 hy0
  rw [div_mul_cancel₀ _ hy0.ne'] at h
  have h1 := pecR_pos P c hy0
  unfold cavR
  rw [inv_mul_le_iff₀ h1, mul_comm]
  refine (ha.trans h).trans (mul_le_mul_of_nonneg_right ?_ h1.le)
  rw [pow_succ]
  exact mul_le_of_le_one_left q0.le (pow_le_one₀ q0.le q1)

/-- The kernel of a sphere inside a cavity. -/
theorem kernC_contr {m c0 : ℕ} (hm : m ≤ c0 + 1) (hc : c0 = 0 ∨ c0 + 1 = m) {ρ y x : ℝ} (hρ : 0 < ρ) (hy : ρ < y) (hx : 0 < x) (fl : Bool)
    {A B : Bool → ℕ → ℝ} (hA0 : ∀ P c, 0 ≤ A P c) (hA : ∀ P c, A P c ≤ pecR (xor fl P) c ρ)
    (hB0 : ∀ P c, 0 ≤ B P c) (hB : ∀ P c, B P c ≤ cavR (xor fl P) c (y + x)) :
    HSContr (kernC m x c0 A B) (min (Real.exp (-(y - ρ))) (ρ / y)) (Real.exp (-(y - ρ)) * (2 * (ρ / y) ^ c0 / (1 - ρ / y))) := by
  have hy0 : 0 < y := hρ.trans hy
  refine ⟨le_min (Real.exp_pos _).le (div_pos hρ hy0).le, (min_le_left _ _).trans_lt (by rw [Real.exp_lt_one_iff]; linarith), fun n p z => ?_, fun n p => ?_⟩
  · refine (kernC_energy hm hc hy0 hx fl hA0 hB0 hB n p z).trans ?_
    rw [Finset.mul_sum]
    refine Finset.sum_le_sum fun i _ => mul_le_mul_of_nonneg_right (le_min ?_ ?_) (sq_nonneg _)
    · refine (cav_amp hρ hy.le _ _ (hA _ _)).trans (mul_le_of_le_one_left (Real.exp_pos _).le ?_)
      exact pow_le_one₀ (div_pos hρ hy0).le ((div_le_one hy0).mpr hy.le)
    · exact cav_amp_static hρ hy.le _ _ (hA _ _)
  · have h := kernC_hs hm hc hρ hy hx fl zero_le_one hA0 (fun P c => by rw [one_mul]; exact hA P c) hB0 hB n p
    rwa [one_mul] at h

end CasSph
