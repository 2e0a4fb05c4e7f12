import Verif.Lemmas.Stronger

/-! # Comparison of the determinants of two pairs of spheres with different amplitudes -/

namespace CasSph

open Spec Filter Topology Matrix Set

/-! ## Arrays -/

theorem gram_neg_scale_cols (H : ℕ → ℕ → ℝ) {v : ℕ → ℝ} (hv : ∀ s, 0 ≤ v s ∧ v s ≤ 1) (n p : ℕ) :
    (1 - gram (-1) (fun i s => H i s * v s) n p).det ≤ (1 - gram (-1) H n p).det := by
  set G : ℕ → ℕ → ℝ := fun i s => if s < p then H i s * v s else H i (s - p) * Real.sqrt (1 - v (s - p) ^ 2)
  have hG := det_corner_monotone G (le_refl n) (Nat.le_add_right p p)
  have e1 : corner G n p = corner (fun i s => H i s * v s) n p := by
    ext i s
    simp [G, corner]
  have e2 : corner G n (p + p) * (corner G n (p + p))ᵀ = corner H n p * (corner H n p)ᵀ := by
    ext i j
    rw [Matrix.mul_apply, Matrix.mul_apply, Fin.sum_univ_add, ← Finset.sum_add_distrib]
    refine Finset.sum_congr rfl fun s _ => ?_
    simp only [corner, transpose_apply, of_apply, G, Fin.val_castAdd, Fin.val_natAdd, s.2, if_true, Nat.not_lt.mpr (Nat.le_add_right p s.1), if_false,
      Nat.add_sub_cancel_left]
    have hq : Real.sqrt (1 - v s ^ 2) * Real.sqrt (1 - v s ^ 2) = 1 - v s ^ 2 := Real.mul_self_sqrt (by have := hv s; nlinarith)
    calc _ = H i s * H j s * (v s ^ 2 + Real.sqrt (1 - v s ^ 2) * Real.sqrt (1 - v s ^ 2)) := by ring
      _ = _ := by rw [hq]; ring
  rw [e1, e2] at hG
  unfold gram
  rw [neg_smul, one_smul, sub_neg_eq_add, neg_smul, one_smul, sub_neg_eq_add]
  exact hG

/-- Reducing rows and columns of `K` decreases `det(1 + K Kᵀ)`. -/
theorem gram_neg_scale (H : ℕ → ℕ → ℝ) {u v : ℕ → ℝ} (hu : ∀ s, 0 ≤ u s ∧ u s ≤ 1) (hv : ∀ s, 0 ≤ v s ∧ v s ≤ 1) (n p : ℕ) :
    (1 - gram (-1) (fun i s => u i * H i s * v s) n p).det ≤ (1 - gram (-1) H n p).det := by
  refine (gram_neg_scale_cols (fun i s => u i * H i s) hv n p).trans ?_
  rw [gram_swap_det, gram_swap_det (H := H)]
  have := gram_neg_scale_cols (fun i s => H s i) hu p n
  simpa only [mul_comm] using this

/-- Repulsion is weaker than attraction with the same array. -/
theorem HSContr.sign_compare {H : ℕ → ℕ → ℝ} {θ T : ℝ} (h : HSContr H θ T) {n p : ℕ} (hH : ∀ i < n, ∀ s < p, 0 ≤ H i s) :
    Real.log (1 - gram (-1) H n p).det ≤ -Real.log (1 - gram 1 H n p).det := by
  have l1 := traceSum_tendsto (h.spectrum (.inl rfl) n p)
  have l2 := traceSum_tendsto (h.spectrum (.inr rfl) n p)
  rw [abs_of_pos (h.pos (.inl rfl) n p).1] at l1
  rw [abs_of_pos (h.pos (.inr rfl) n p).1] at l2
  have l3 := l2.neg
  rw [neg_neg] at l3
  refine le_of_tendsto_of_tendsto' l3 l1 fun K => ?_
  have eg : gram (-1) H n p = -gram 1 H n p := by unfold gram; rw [neg_smul]
  have g0 : ∀ i j : Fin n, 0 ≤ gram 1 H n p i j := by
    intro i j
    unfold gram
    rw [one_smul, Matrix.mul_apply]
    exact Finset.sum_nonneg fun s _ => mul_nonneg (hH i.1 i.2 s.1 s.2) (hH j.1 j.2 s.1 s.2)
  unfold traceSum
  rw [← Finset.sum_neg_distrib]
  refine Finset.sum_le_sum fun j _ => ?_
  rw [← neg_div]
  refine div_le_div_of_nonneg_right ?_ (Nat.cast_nonneg j)
  have ht : 0 ≤ (gram 1 H n p ^ j).trace := by
    refine Finset.sum_nonneg fun i _ => ?_
    exact (pow_entry_mono (c := 1) g0 (fun i j => (one_mul _).ge) g0 zero_le_one j i i).1
  rw [eg, neg_pow, ← Matrix.trace_neg]
  rcases Nat.even_or_odd j with e | e
  · rw [e.neg_one_pow, one_mul, Matrix.trace_neg]; linarith
  · rw [e.neg_one_pow, neg_one_mul, neg_neg]

theorem sqrt_ratio {a b : ℝ} (ha : 0 ≤ a) (h : a ≤ b) :
    Real.sqrt a = Real.sqrt a / Real.sqrt b * Real.sqrt b ∧ 0 ≤ Real.sqrt a / Real.sqrt b ∧ Real.sqrt a / Real.sqrt b ≤ 1 := by
  refine ⟨?_, by positivity, div_le_one_of_le₀ (Real.sqrt_le_sqrt h) (Real.sqrt_nonneg _)⟩
  rcases (Real.sqrt_nonneg b).eq_or_lt with e | e
  · have := Real.sqrt_le_sqrt h
    rw [← e] at this ⊢
    rw [mul_zero]
    exact le_antisymm this (Real.sqrt_nonneg a)
  · rw [div_mul_cancel₀ _ e.ne']

theorem amp_nonneg {m md : Material} {k r σ : ℝ} {A : Bool → ℕ → ℝ} (h : Amp m md k r σ A) (P : Bool) (i : ℕ) : 0 ≤ A P i := by
  obtain ⟨c, b, -, -, hr⟩ := h
  exact ((hr i).1 P).1

/-! ## Two pairs -/

/-- `P'` is the same arrangement with larger spheres or with materials of more contrast. -/
structure Stronger (P P' : PairIn) : Prop where
  medium : P'.mat3 = P.mat3
  dist : P'.L = P.L
  lmax : P'.lmax = P.lmax
  lssmax : P'.lssmax = P.lssmax
  r1 : P.r1 ≤ P'.r1
  r2 : P.r2 ≤ P'.r2
  c1 : ∀ k, 0 < k → MoreContrast P.mat1 P'.mat1 P.mat3 k
  c2 : ∀ k, 0 < k → MoreContrast P.mat2 P'.mat2 P.mat3 k

theorem lnDetV_stronger {P P' : PairIn} (h : PairOK P) (h' : PairOK P') (hs : Stronger P P') {m : ℕ} (hm : max 1 m ≤ P.lmax) {k : ℝ} (hk : 0 < k)
    {σa σb σa' σb' : ℝ} (ea : DenseSign P.mat1 P.mat3 k σa) (eb : DenseSign P.mat2 P.mat3 k σb) (ea' : DenseSign P'.mat1 P'.mat3 k σa')
    (eb' : DenseSign P'.mat2 P'.mat3 k σb') :
    (σa * σb = 1 → σa' * σb' = 1 → lnDetV P' m k ≤ lnDetV P m k) ∧
    (σa * σb = -1 → σa' * σb' = -1 → lnDetV P m k ≤ lnDetV P' m k) ∧
    (σa' * σb' = 1 → |lnDetV P m k| ≤ -lnDetV P' m k) := by
  obtain ⟨A, hA⟩ := amp_exists h.m1 h.m3 hk h.h1 ea
  obtain ⟨B, hB⟩ := amp_exists h.m2 h.m3 hk h.h2 eb
  obtain ⟨A', hA'⟩ := amp_exists h'.m1 h'.m3 hk h'.h1 ea'
  obtain ⟨B', hB'⟩ := amp_exists h'.m2 h'.m3 hk h'.h2 eb'
  obtain ⟨g1, e1⟩ := lnDetV_kern h hm hk hA hB
  obtain ⟨g2, e2⟩ := lnDetV_kern h' (by rw [hs.lmax]; exact hm) hk hA' hB'
  rw [hs.medium, hs.dist] at g2
  rw [hs.medium, hs.dist, hs.lmax, hs.lssmax] at e2
  have cA : ∀ Q i, A Q i ≤ A' Q i := fun Q i => by
    rw [hA.val ea.sign, hA'.val ea'.sign, hs.medium]
    exact ampV_stronger h.m1 h'.m1 h.m3 h.h1 hs.r1 i hk (hs.c1 k hk) Q
  have cB : ∀ Q i, B Q i ≤ B' Q i := fun Q i => by
    rw [hB.val eb.sign, hB'.val eb'.sign, hs.medium]
    exact ampV_stronger h.m2 h'.m2 h.m3 h.h2 hs.r2 i hk (hs.c2 k hk) Q
  have hL0 : 0 < P.L := by linarith [h.sep, h.h1, h.h2]
  have hε := (zero_lt_one.trans_le (h.m3.one_le hk))
  have hx : 0 < k * P.L * Real.sqrt (P.mat3.epsV k) := by positivity
  have n1 : ∀ i < 2 * (P.lmax + 1 - transLmin m), ∀ s < 2 * (P.lssmax + 1 - transLmin m), 0 ≤ kern m (k * P.L * Real.sqrt (P.mat3.epsV k)) (m - 1) A B i s :=
    fun i _ s _ => kern_nonneg hx _ _ _ _ _
  have key := g2.compare g1 zero_le_one le_rfl n1 (fun i _ s _ => kern_nonneg hx _ _ _ _ _)
    (fun i _ s _ => by rw [one_mul]; exact kern_mono hx _ cA cB _ _)
  rw [one_pow, one_mul] at key
  have hab : ∀ {a b : ℝ}, (a = 1 ∨ a = -1) → (b = 1 ∨ b = -1) → a * b = 1 ∨ a * b = -1 := by
    rintro a b (rfl | rfl) (rfl | rfl) <;> norm_num
  refine ⟨fun h1 h2 => ?_, fun h1 h2 => ?_, fun h2 => ?_⟩
  · rw [e1, e2, h1, h2]
    linarith
  · rw [e1, e2, h1, h2]
    refine Real.log_le_log (g1.pos (.inr rfl) _ _).1 ?_
    have e : kern m (k * P.L * Real.sqrt (P.mat3.epsV k)) (m - 1) A B = fun i s =>
        (Real.sqrt (A i.bodd (m - 1 + i.div2)) / Real.sqrt (A' i.bodd (m - 1 + i.div2))) *
        kern m (k * P.L * Real.sqrt (P.mat3.epsV k)) (m - 1) A' B' i s *
        (Real.sqrt (B s.bodd (m - 1 + s.div2)) / Real.sqrt (B' s.bodd (m - 1 + s.div2))) := by
      funext i s
      unfold kern
      have q1 := (sqrt_ratio (amp_nonneg hA i.bodd (m - 1 + i.div2)) (cA i.bodd (m - 1 + i.div2))).1
      have q2 := (sqrt_ratio (amp_nonneg hB s.bodd (m - 1 + s.div2)) (cB s.bodd (m - 1 + s.div2))).1
      have hmul : ∀ {x y a b c d f : ℝ}, x = a * b → y = c * d → x * f * y = a * (b * f * d) * c := by
        rintro x y a b c d f rfl rfl; ring
      exact hmul q1 q2
    rw [e]
    exact gram_neg_scale _ (fun i => (sqrt_ratio (amp_nonneg hA _ _) (cA _ _)).2) (fun s => (sqrt_ratio (amp_nonneg hB _ _) (cB _ _)).2) _ _
  · rw [e1, e2, h2]
    refine le_trans ?_ key
    rcases hab ea.sign eb.sign with e | e <;> rw [e]
    · rw [abs_of_nonpos (g1.sign _ _).1]
    · rw [abs_of_nonneg (g1.sign _ _).2]
      exact g1.sign_compare n1

theorem pairSum_stronger {P P' : PairIn} (h : PairOK P) (h' : PairOK P') (hs : Stronger P P') {k : ℝ} (hk : 0 < k)
    {σa σb σa' σb' : ℝ} (ea : DenseSign P.mat1 P.mat3 k σa) (eb : DenseSign P.mat2 P.mat3 k σb) (ea' : DenseSign P'.mat1 P'.mat3 k σa')
    (eb' : DenseSign P'.mat2 P'.mat3 k σb') :
    (σa * σb = 1 → σa' * σb' = 1 → pairSum P' k ≤ pairSum P k) ∧
    (σa * σb = -1 → σa' * σb' = -1 → pairSum P k ≤ pairSum P' k) ∧
    (σa' * σb' = 1 → |pairSum P k| ≤ -pairSum P' k) := by
  have key := fun m (hm : m ≤ P.lmax) => lnDetV_stronger h h' hs (m := m) (by have := h.hl; omega) hk ea eb ea' eb'
  unfold pairSum
  rw [hs.lmax]
  refine ⟨fun h1 h2 => ?_, fun h1 h2 => ?_, fun h2 => ?_⟩
  · have a := (key 0 (by omega)).1 h1 h2
    have b := Finset.sum_le_sum fun m (hm : m ∈ Finset.Icc 1 P.lmax) => (key m (Finset.mem_Icc.mp hm).2).1 h1 h2
    linarith
  · have a := (key 0 (by omega)).2.1 h1 h2
    have b := Finset.sum_le_sum fun m (hm : m ∈ Finset.Icc 1 P.lmax) => (key m (Finset.mem_Icc.mp hm).2).2.1 h1 h2
    linarith
  · have a := (key 0 (by omega)).2.2 h2
    have b := Finset.sum_le_sum fun m (hm : m ∈ Finset.Icc 1 P.lmax) => (key m (Finset.mem_Icc.mp hm).2).2.2 h2
    have c := Finset.abs_sum_le_sum_abs (fun m => lnDetV P m k) (Finset.Icc 1 P.lmax)
    rw [Finset.sum_neg_distrib] at b
    calc _ ≤ |lnDetV P 0 k| + |2 * ∑ m ∈ Finset.Icc 1 P.lmax, lnDetV P m k| := abs_add_le _ _
      _ ≤ _ := by rw [abs_mul, abs_of_pos (two_pos : (0 : ℝ) < 2)]; linarith

end CasSph
