import Verif.Lemmas.GramSign

/-! Determinants of `1 - M` for matrices `M` which are entry by entry smaller than the Gram matrix of a contraction with
non-negative entries. -/

namespace CasSph

open Spec Filter Topology Matrix

section entry
variable {N : ℕ} {A B P Q : Matrix (Fin N) (Fin N) ℝ}

theorem abs_mul_le (hA : ∀ i j, |A i j| ≤ P i j) (hB : ∀ i j, |B i j| ≤ Q i j) (i j : Fin N) :
    |(A * B) i j| ≤ (P * Q) i j := by
  simp only [Matrix.mul_apply]
  refine (Finset.abs_sum_le_sum_abs _ _).trans (Finset.sum_le_sum fun k _ => ?_)
  rw [abs_mul]
  exact mul_le_mul (hA i k) (hB k j) (abs_nonneg _) ((abs_nonneg _).trans (hA i k))

theorem abs_pow_le (hA : ∀ i j, |A i j| ≤ P i j) (k : ℕ) (i j : Fin N) : |(A ^ k) i j| ≤ (P ^ k) i j := by
  induction k generalizing i j with
  | zero =>
    simp only [_root_.pow_zero]
    rw [abs_of_nonneg]
    by_cases h : i = j
    · subst h; simp
    · simp [Matrix.one_apply_ne h]
  | succ k ih =>
    rw [_root_.pow_succ, _root_.pow_succ]
    exact abs_mul_le ih hA i j

/-- Differences of powers are dominated by the differences of the powers of the dominating matrices. -/
theorem abs_pow_sub_le (hAB : ∀ i j, |A i j - B i j| ≤ P i j - Q i j) (hB : ∀ i j, |B i j| ≤ Q i j) (k : ℕ) (i j : Fin N) :
    |(A ^ k) i j - (B ^ k) i j| ≤ (P ^ k) i j - (Q ^ k) i j := by
  have hA : ∀ i j, |A i j| ≤ P i j := fun i j => by
    have h1 := hAB i j
    have h2 := hB i j
    rw [abs_le] at h1 h2 ⊢
    constructor <;> linarith [h1.1, h1.2, h2.1, h2.2]
  induction k generalizing i j with
  | zero => simp
  | succ k ih =>
    have e1 : A ^ (k + 1) - B ^ (k + 1) = (A ^ k - B ^ k) * A + B ^ k * (A - B) := by
      rw [_root_.pow_succ, _root_.pow_succ]; noncomm_ring
    have e2 : P ^ (k + 1) - Q ^ (k + 1) = (P ^ k - Q ^ k) * P + Q ^ k * (P - Q) := by
      rw [_root_.pow_succ, _root_.pow_succ]; noncomm_ring
    rw [← Matrix.sub_apply, ← Matrix.sub_apply, e1, e2, Matrix.add_apply, Matrix.add_apply]
    refine (abs_add_le _ _).trans (add_le_add ?_ ?_)
    · exact abs_mul_le (fun i j => by rw [Matrix.sub_apply, Matrix.sub_apply]; exact ih i j) hA i j
    · exact abs_mul_le (abs_pow_le hB k) (fun i j => by rw [Matrix.sub_apply, Matrix.sub_apply]; exact hAB i j) i j

theorem abs_trace_le (hA : ∀ i j, |A i j| ≤ P i j) (k : ℕ) : |traceSum A k| ≤ traceSum P k := by
  unfold traceSum
  refine (Finset.abs_sum_le_sum_abs _ _).trans (Finset.sum_le_sum fun j _ => ?_)
  rw [abs_div, Nat.abs_cast]
  refine div_le_div_of_nonneg_right ?_ (Nat.cast_nonneg j)
  exact (Finset.abs_sum_le_sum_abs _ _).trans (Finset.sum_le_sum fun i _ => abs_pow_le hA j i i)

theorem abs_trace_sub_le (hAB : ∀ i j, |A i j - B i j| ≤ P i j - Q i j) (hB : ∀ i j, |B i j| ≤ Q i j) (k : ℕ) :
    |traceSum A k - traceSum B k| ≤ traceSum P k - traceSum Q k := by
  unfold traceSum
  rw [← Finset.sum_sub_distrib, ← Finset.sum_sub_distrib]
  refine (Finset.abs_sum_le_sum_abs _ _).trans (Finset.sum_le_sum fun j _ => ?_)
  rw [← sub_div, ← sub_div, abs_div, Nat.abs_cast]
  refine div_le_div_of_nonneg_right ?_ (Nat.cast_nonneg j)
  simp only [Matrix.trace, Matrix.diag_apply]
  rw [← Finset.sum_sub_distrib, ← Finset.sum_sub_distrib]
  exact (Finset.abs_sum_le_sum_abs _ _).trans (Finset.sum_le_sum fun i _ => abs_pow_sub_le hAB hB j i i)

/-- A matrix dominated by one which shrinks all vectors has its spectrum in the unit disc. -/
theorem spectrum_of_dominated {θ : ℝ} (h0 : 0 ≤ θ) (h1 : θ < 1) (hP : ∀ u : Fin N → ℝ, ∑ i, (P *ᵥ u) i ^ 2 ≤ θ ^ 2 * ∑ i, u i ^ 2)
    (hA : ∀ i j, |A i j| ≤ P i j) : SpectrumInDisc A := by
  intro z x hx hz
  have hle : ∀ i, ‖z‖ * ‖x i‖ ≤ (P *ᵥ fun j => ‖x j‖) i := by
    intro i
    have := congrFun hz i
    simp only [Matrix.mulVec, dotProduct, Matrix.map_apply, Pi.smul_apply, smul_eq_mul] at this
    rw [← norm_mul, ← this]
    refine (norm_sum_le _ _).trans (Finset.sum_le_sum fun j _ => ?_)
    rw [norm_mul, Complex.norm_real, Real.norm_eq_abs]
    exact mul_le_mul_of_nonneg_right (hA i j) (norm_nonneg _)
  have hs : ‖z‖ ^ 2 * ∑ i, ‖x i‖ ^ 2 ≤ θ ^ 2 * ∑ i, ‖x i‖ ^ 2 := by
    refine le_trans ?_ (hP fun j => ‖x j‖)
    rw [Finset.mul_sum]
    refine Finset.sum_le_sum fun i _ => ?_
    rw [← mul_pow]
    exact pow_le_pow_left₀ (by positivity) (hle i) 2
  have hpos : 0 < ∑ i, ‖x i‖ ^ 2 := by
    obtain ⟨i, hi⟩ := Function.ne_iff.mp hx
    refine Finset.sum_pos' (fun i _ => sq_nonneg _) ⟨i, Finset.mem_univ _, ?_⟩
    have : 0 < ‖x i‖ := norm_pos_iff.mpr hi
    positivity
  exact (abs_le_of_sq_le_sq' (le_of_mul_le_mul_right hs hpos) h0).2.trans_lt h1

theorem det_ne_zero_of_spectrum (h : SpectrumInDisc A) : (1 - A).det ≠ 0 := by
  intro hd
  obtain ⟨v, hv, h0⟩ := Matrix.exists_mulVec_eq_zero_iff.mpr hd
  rw [Matrix.sub_mulVec, Matrix.one_mulVec, sub_eq_zero] at h0
  have := h 1 (fun i => (v i : ℂ)) (fun hh => hv (funext fun i => by simpa using congrFun hh i)) (by
    ext i
    have := congrFun h0 i
    simp only [Matrix.mulVec, dotProduct, Matrix.map_apply, Pi.smul_apply, smul_eq_mul, one_mul] at this ⊢
    rw [this]
    simp)
  simp at this

/-- `det(1 - A) > 0` for spectrum in the unit disc: the determinant of `1 - tA` does not vanish for `0 ≤ t ≤ 1`. -/
theorem det_pos_of_dominated {θ : ℝ} (h0 : 0 ≤ θ) (h1 : θ < 1)
    (hP : ∀ u : Fin N → ℝ, ∑ i, (P *ᵥ u) i ^ 2 ≤ θ ^ 2 * ∑ i, u i ^ 2) (hA : ∀ i j, |A i j| ≤ P i j) : 0 < (1 - A).det := by
  by_contra hn
  push Not at hn
  have hc : Continuous fun t : ℝ => (1 - t • A).det := Continuous.matrix_det (by fun_prop)
  have hiv := intermediate_value_Icc' (zero_le_one' ℝ) hc.continuousOn
  have : (0 : ℝ) ∈ Set.Icc ((1 - (1 : ℝ) • A).det) ((1 - (0 : ℝ) • A).det) := by
    rw [one_smul, zero_smul, sub_zero, Matrix.det_one]
    exact ⟨hn, zero_le_one⟩
  obtain ⟨t, ht, e⟩ := hiv this
  refine det_ne_zero_of_spectrum (spectrum_of_dominated h0 h1 hP (A := t • A) fun i j => ?_) e
  rw [Matrix.smul_apply, smul_eq_mul, abs_mul, abs_of_nonneg ht.1]
  exact (mul_le_of_le_one_left (abs_nonneg _) ht.2).trans (hA i j)

end entry

/-- `diag(α) H diag(β) Hᵀ` for one corner. -/
def mixed (α β : ℕ → ℝ) (H : ℕ → ℕ → ℝ) (n p : ℕ) : Matrix (Fin n) (Fin n) ℝ :=
  of fun i j => α i.1 * ∑ s ∈ Finset.range p, H i.1 s * β s * H j.1 s

theorem gram_apply (σ : ℝ) (H : ℕ → ℕ → ℝ) {n p : ℕ} (i j : Fin n) :
    gram σ H n p i j = σ * ∑ s ∈ Finset.range p, H i.1 s * H j.1 s := by
  unfold gram
  rw [Matrix.smul_apply, smul_eq_mul, Matrix.mul_apply, ← Fin.sum_univ_eq_sum_range (fun s => H i.1 s * H j.1 s)]
  rfl

theorem mixed_const (a b : ℝ) (H : ℕ → ℕ → ℝ) (n p : ℕ) : mixed (fun _ => a) (fun _ => b) H n p = gram (a * b) H n p := by
  ext i j
  rw [gram_apply, mixed, of_apply, mul_assoc]
  congr 1
  rw [Finset.mul_sum]
  exact Finset.sum_congr rfl fun s _ => by ring

theorem mixed_eq (α β : ℕ → ℝ) (H : ℕ → ℕ → ℝ) (n p : ℕ) : mixed α β H n p =
    diagonal (fun i : Fin n => α i.1) * (corner H n p * diagonal (fun s : Fin p => β s.1) * (corner H n p)ᵀ) := by
  ext i j
  rw [Matrix.diagonal_mul, Matrix.mul_apply, mixed, of_apply, ← Fin.sum_univ_eq_sum_range (fun s => H i.1 s * β s * H j.1 s)]
  congr 1
  exact Finset.sum_congr rfl fun s _ => by rw [Matrix.mul_diagonal]; rfl

variable {H : ℕ → ℕ → ℝ} {θ T : ℝ} {α β : ℕ → ℝ}

theorem mixed_le (hH : ∀ i s, 0 ≤ H i s) (ha : ∀ i, |α i| ≤ 1) (hb : ∀ s, |β s| ≤ 1) {n p : ℕ} (i j : Fin n) :
    |mixed α β H n p i j| ≤ gram 1 H n p i j := by
  rw [gram_apply, mixed, of_apply, abs_mul]
  refine mul_le_mul (ha _) ?_ (abs_nonneg _) zero_le_one
  refine (Finset.abs_sum_le_sum_abs _ _).trans (Finset.sum_le_sum fun s _ => ?_)
  rw [abs_mul, abs_mul, abs_of_nonneg (hH _ _), abs_of_nonneg (hH _ _)]
  exact mul_le_mul_of_nonneg_right (mul_le_of_le_one_right (hH _ _) (hb s)) (hH _ _)

/-- The determinant of a dominated round trip is positive, and its logarithm is bounded by that of the dominating one. -/
theorem HSContr.mixed_bound (h : HSContr H θ T) (hH : ∀ i s, 0 ≤ H i s) (ha : ∀ i, |α i| ≤ 1) (hb : ∀ s, |β s| ≤ 1) (n p : ℕ) :
    SpectrumInDisc (mixed α β H n p) ∧ 0 < (1 - mixed α β H n p).det ∧
    |Real.log (1 - mixed α β H n p).det| ≤ -Real.log (1 - gram 1 H n p).det := by
  have hN := fun u => h.norm_le (σ := 1) (.inl rfl) (p := p) (n := n) u
  have hM := mixed_le (p := p) hH ha hb (n := n)
  have hs := spectrum_of_dominated h.nonneg h.lt hN hM
  have hp := det_pos_of_dominated h.nonneg h.lt hN hM
  refine ⟨hs, hp, ?_⟩
  have l1 := traceSum_tendsto hs
  have l2 := traceSum_tendsto (h.spectrum (.inl rfl) n p)
  rw [abs_of_pos hp] at l1
  rw [abs_of_pos (h.pos (.inl rfl) n p).1] at l2
  rw [← abs_neg]
  exact le_of_tendsto_of_tendsto' l1.abs l2 fun k => abs_trace_le hM k

/-- The corner with all entries outside the first `n` rows and `p` columns set to zero. -/
def cutH (H : ℕ → ℕ → ℝ) (n p i s : ℕ) : ℝ := if i < n ∧ s < p then H i s else 0

theorem mixed_cut_apply {n n' p p' : ℕ} (hp : p ≤ p') (i j : Fin n') : mixed α β (cutH H n p) n' p' i j =
    if i.1 < n ∧ j.1 < n then α i.1 * ∑ s ∈ Finset.range p, H i.1 s * β s * H j.1 s else 0 := by
  rw [mixed, of_apply]
  split_ifs with h
  · congr 1
    rw [← Finset.sum_subset (Finset.range_subset_range.mpr hp)]
    · refine Finset.sum_congr rfl fun s hs => ?_
      simp only [cutH, h.1, h.2, Finset.mem_range.mp hs, and_self, if_true]
    · intro s _ hs
      simp [cutH, Finset.mem_range.not.mp hs]
  · refine mul_eq_zero_of_right _ (Finset.sum_eq_zero fun s _ => ?_)
    rw [not_and_or] at h
    rcases h with h | h <;> simp [cutH, h]

/-- Padding with zeros does not change the determinant. -/
theorem mixed_cut_det {n n' p p' : ℕ} (hn : n ≤ n') (hp : p ≤ p') :
    (1 - mixed α β (cutH H n p) n' p').det = (1 - mixed α β H n p).det := by
  set E : Matrix (Fin n') (Fin n) ℝ := of fun i j => if i.1 = j.1 then 1 else 0 with hE
  have h1 : Eᵀ * E = 1 := by
    ext i j
    rw [Matrix.mul_apply, Finset.sum_eq_single (⟨i.1, i.2.trans_le hn⟩ : Fin n')]
    · simp only [hE, Matrix.transpose_apply, of_apply, if_true, one_mul, Matrix.one_apply, Fin.ext_iff]
    · intro b _ hb
      have : b.1 ≠ i.1 := fun h => hb (Fin.ext h)
      simp [hE, this]
    · simp
  have h2 : mixed α β (cutH H n p) n' p' = E * (mixed α β H n p * Eᵀ) := by
    ext i j
    rw [mixed_cut_apply hp, Matrix.mul_apply]
    have e : ∀ a : Fin n, (mixed α β H n p * Eᵀ) a j = if h : j.1 < n then mixed α β H n p a ⟨j.1, h⟩ else 0 := by
      intro a
      rw [Matrix.mul_apply]
      split_ifs with h
      · rw [Finset.sum_eq_single (⟨j.1, h⟩ : Fin n)]
        · simp [hE]
        · intro b _ hb
          have : j.1 ≠ b.1 := fun h => hb (Fin.ext h.symm)
          simp [hE, this]
        · simp
      · refine Finset.sum_eq_zero fun b _ => ?_
        have : j.1 ≠ b.1 := fun hh => h (hh ▸ b.2)
        simp [hE, this]
    simp only [e]
    by_cases hi : i.1 < n
    · rw [Finset.sum_eq_single (⟨i.1, hi⟩ : Fin n)]
      · by_cases hj : j.1 < n
        · simp [hE, hi, hj, mixed]
        · simp [hj]
      · intro b _ hb
        have : i.1 ≠ b.1 := fun h => hb (Fin.ext h.symm)
        simp [hE, this]
      · simp
    · rw [if_neg fun h => hi h.1]
      symm
      refine Finset.sum_eq_zero fun b _ => ?_
      have : i.1 ≠ b.1 := fun hh => hi (hh ▸ b.2)
      simp [hE, this]
  rw [h2, Matrix.det_one_sub_mul_comm, Matrix.mul_assoc, h1, Matrix.mul_one]

theorem cutH_nonneg (hH : ∀ i s, 0 ≤ H i s) (n p i s : ℕ) : 0 ≤ cutH H n p i s := by
  unfold cutH; split_ifs <;> first | exact hH _ _ | exact le_rfl

/-- Between two cut-offs a dominated round trip changes by at most as much as the dominating one. -/
theorem HSContr.mixed_sub (h : HSContr H θ T) (hH : ∀ i s, 0 ≤ H i s) (ha : ∀ i, |α i| ≤ 1) (hb : ∀ s, |β s| ≤ 1)
    {n n' p p' : ℕ} (hn : n ≤ n') (hp : p ≤ p') :
    |Real.log (1 - mixed α β H n' p').det - Real.log (1 - mixed α β H n p).det| ≤
      Real.log (1 - gram 1 H n p).det - Real.log (1 - gram 1 H n' p').det := by
  have g1 : ∀ (H : ℕ → ℕ → ℝ) (n p : ℕ), gram 1 H n p = mixed (fun _ => 1) (fun _ => 1) H n p := fun H n p => by
    rw [mixed_const, one_mul]
  have hc := cutH_nonneg hH n p
  have hQle : ∀ i j : Fin n', gram 1 (cutH H n p) n' p' i j ≤ gram 1 H n' p' i j := by
    intro i j
    rw [gram_apply, gram_apply, one_mul, one_mul]
    refine Finset.sum_le_sum fun s _ => mul_le_mul ?_ ?_ (hc _ _) (hH _ _)
    all_goals unfold cutH; split_ifs <;> first | exact le_rfl | exact hH _ _
  have hQ0 : ∀ i j : Fin n', |gram 1 (cutH H n p) n' p' i j| ≤ gram 1 H n' p' i j := fun i j => by
    rw [abs_of_nonneg]
    · exact hQle i j
    · rw [gram_apply, one_mul]; exact Finset.sum_nonneg fun s _ => mul_nonneg (hc _ _) (hc _ _)
  have hB := mixed_le (p := p') hc ha hb (n := n')
  have hB' : ∀ i j, |mixed α β (cutH H n p) n' p' i j| ≤ gram 1 H n' p' i j := fun i j => (hB i j).trans (hQle i j)
  have hsub : ∀ i j : Fin n', |mixed α β H n' p' i j - mixed α β (cutH H n p) n' p' i j| ≤
      gram 1 H n' p' i j - gram 1 (cutH H n p) n' p' i j := by
    intro i j
    by_cases hij : i.1 < n ∧ j.1 < n
    · rw [g1, g1, mixed_cut_apply hp, mixed_cut_apply hp, if_pos hij, if_pos hij]
      simp only [mixed, of_apply, one_mul, mul_one]
      rw [← mul_sub, Finset.sum_range_sub_sum_range hp, Finset.sum_range_sub_sum_range hp, abs_mul]
      refine (mul_le_of_le_one_left (abs_nonneg _) (ha _)).trans ((Finset.abs_sum_le_sum_abs _ _).trans (Finset.sum_le_sum fun s _ => ?_))
      rw [abs_mul, abs_mul, abs_of_nonneg (hH _ _), abs_of_nonneg (hH _ _)]
      exact mul_le_mul_of_nonneg_right (mul_le_of_le_one_right (hH _ _) (hb s)) (hH _ _)
    · rw [mixed_cut_apply hp, if_neg hij, g1 (cutH H n p), mixed_cut_apply hp, if_neg hij, sub_zero, sub_zero]
      exact mixed_le hH ha hb i j
  have hN := fun u => h.norm_le (σ := 1) (.inl rfl) (p := p') (n := n') u
  have fin : ∀ {A : Matrix (Fin n') (Fin n') ℝ}, (∀ i j, |A i j| ≤ gram 1 H n' p' i j) →
      Tendsto (fun k => traceSum A k) atTop (𝓝 (-Real.log (1 - A).det)) := by
    intro A hA
    have := traceSum_tendsto (spectrum_of_dominated h.nonneg h.lt hN hA)
    rwa [abs_of_pos (det_pos_of_dominated h.nonneg h.lt hN hA)] at this
  have l1 := fin (mixed_le (p := p') hH ha hb (n := n'))
  have l2 := fin hB'
  have l3 := fin (A := gram 1 H n' p') fun i j => by
    rw [abs_of_nonneg]
    rw [gram_apply, one_mul]; exact Finset.sum_nonneg fun s _ => mul_nonneg (hH _ _) (hH _ _)
  have l4 := fin hQ0
  have key := le_of_tendsto_of_tendsto' (l1.sub l2).abs (l3.sub l4) fun k => abs_trace_sub_le hsub hB k
  rw [mixed_cut_det hn hp, g1 (cutH H n p), mixed_cut_det hn hp, ← g1] at key
  calc _ = |-Real.log (1 - mixed α β H n' p').det - -Real.log (1 - mixed α β H n p).det| := by
        rw [← abs_neg]; congr 1; ring
    _ ≤ _ := key
    _ = _ := by ring

end CasSph
