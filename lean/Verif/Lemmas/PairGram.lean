import Verif.Lemmas.PairValue

/-! # The determinants of a pair of spheres in terms of one array of non-negative numbers: exchange of the spheres, comparison -/

namespace CasSph

open Spec Filter Topology Matrix

/-! ## Arrays -/

theorem gram_swap_det {H : ℕ → ℕ → ℝ} (σ : ℝ) (n p : ℕ) :
    (1 - gram σ H n p).det = (1 - gram σ (fun i s => H s i) p n).det := by
  unfold gram
  have e : corner (fun i s => H s i) p n = (corner H n p)ᵀ := rfl
  rw [e, Matrix.transpose_transpose, ← Matrix.smul_mul, Matrix.det_one_sub_mul_comm, Matrix.mul_smul]

theorem pow_entry_mono {n : ℕ} {X Y : Matrix (Fin n) (Fin n) ℝ} {c : ℝ} (h0 : ∀ i j, 0 ≤ X i j) (hle : ∀ i j, X i j ≤ c * Y i j) (hY : ∀ i j, 0 ≤ Y i j)
    (hc : 0 ≤ c) : ∀ j a b, 0 ≤ (X ^ j) a b ∧ 0 ≤ (Y ^ j) a b ∧ (X ^ j) a b ≤ c ^ j * (Y ^ j) a b
  | 0, a, b => by
    rw [pow_zero, pow_zero, pow_zero, one_mul]
    have : 0 ≤ (1 : Matrix (Fin n) (Fin n) ℝ) a b := by rw [Matrix.one_apply]; split_ifs <;> norm_num
    exact ⟨this, this, le_rfl⟩
  | j + 1, a, b => by
    have ih := pow_entry_mono h0 hle hY hc j
    rw [_root_.pow_succ, _root_.pow_succ, _root_.pow_succ, Matrix.mul_apply, Matrix.mul_apply]
    refine ⟨Finset.sum_nonneg fun i _ => mul_nonneg (ih a i).1 (h0 i b), Finset.sum_nonneg fun i _ => mul_nonneg (ih a i).2.1 (hY i b), ?_⟩
    rw [Finset.mul_sum]
    refine Finset.sum_le_sum fun i _ => ?_
    calc _ ≤ c ^ j * (Y ^ j) a i * (c * Y i b) := mul_le_mul (ih a i).2.2 (hle i b) (h0 i b) (mul_nonneg (by positivity) (ih a i).2.1)
      _ = _ := by ring

/-- If the non-negative array `H'` is at most `c H` with `0 ≤ c ≤ 1`, then the logarithm of its determinant is smaller by a factor `c²` at least. -/
theorem HSContr.compare {H H' : ℕ → ℕ → ℝ} {θ θ' T T' c : ℝ} (h : HSContr H θ T) (h' : HSContr H' θ' T') (c0 : 0 ≤ c) (c1 : c ≤ 1)
    {n p : ℕ} (h0 : ∀ i < n, ∀ s < p, 0 ≤ H' i s) (hH : ∀ i < n, ∀ s < p, 0 ≤ H i s) (hle : ∀ i < n, ∀ s < p, H' i s ≤ c * H i s) :
    -Real.log (1 - gram 1 H' n p).det ≤ c ^ 2 * -Real.log (1 - gram 1 H n p).det := by
  have l1 := traceSum_tendsto (h.spectrum (.inl rfl) n p)
  have l2 := traceSum_tendsto (h'.spectrum (.inl rfl) n p)
  rw [abs_of_pos (h.pos (.inl rfl) n p).1] at l1
  rw [abs_of_pos (h'.pos (.inl rfl) n p).1] at l2
  have g : ∀ i j : Fin n, 0 ≤ gram 1 H' n p i j ∧ 0 ≤ gram 1 H n p i j ∧ gram 1 H' n p i j ≤ c ^ 2 * gram 1 H n p i j := by
    intro i j
    unfold gram
    rw [one_smul, one_smul, Matrix.mul_apply, Matrix.mul_apply]
    simp only [Matrix.transpose_apply]
    have q0 : ∀ (i : Fin n) (s : Fin p), 0 ≤ corner H' n p i s := fun i s => h0 i.1 i.2 s.1 s.2
    have q1 : ∀ (i : Fin n) (s : Fin p), 0 ≤ corner H n p i s := fun i s => hH i.1 i.2 s.1 s.2
    have q2 : ∀ (i : Fin n) (s : Fin p), corner H' n p i s ≤ c * corner H n p i s := fun i s => hle i.1 i.2 s.1 s.2
    refine ⟨Finset.sum_nonneg fun s _ => mul_nonneg (q0 i s) (q0 j s), Finset.sum_nonneg fun s _ => mul_nonneg (q1 i s) (q1 j s), ?_⟩
    rw [Finset.mul_sum]
    refine Finset.sum_le_sum fun s _ => ?_
    calc _ ≤ c * corner H n p i s * (c * corner H n p j s) := mul_le_mul (q2 i s) (q2 j s) (q0 j s) (mul_nonneg c0 (q1 i s))
      _ = _ := by ring
  refine le_of_tendsto_of_tendsto' l2 (l1.const_mul (c ^ 2)) fun K => ?_
  unfold traceSum
  rw [Finset.mul_sum]
  refine Finset.sum_le_sum fun j hj => ?_
  have hj1 := (Finset.mem_Icc.mp hj).1
  rw [← mul_div_assoc]
  refine div_le_div_of_nonneg_right ?_ (Nat.cast_nonneg j)
  simp only [Matrix.trace, Matrix.diag_apply]
  rw [Finset.mul_sum]
  refine Finset.sum_le_sum fun i _ => ?_
  obtain ⟨-, p2, p3⟩ := pow_entry_mono (c := c ^ 2) (fun i j => (g i j).1) (fun i j => (g i j).2.2) (fun i j => (g i j).2.1) (by positivity) j i i
  refine p3.trans (mul_le_mul_of_nonneg_right ?_ p2)
  exact pow_le_of_le_one (by positivity) (by nlinarith) (by omega)

theorem kern_decay {m : ℕ} {x y : ℝ} (hx : 0 < x) (hxy : x ≤ y) (c0 : ℕ) (A B : Bool → ℕ → ℝ) (i s : ℕ) :
    kern m y c0 A B i s ≤ Real.exp (-(y - x)) * kern m x c0 A B i s := by
  have hf : ∀ P Q c c', fab m y P Q c c' ≤ Real.exp (-(y - x)) * fab m x P Q c c' := by
    intro P Q c c'
    unfold fab
    have h0 : 0 ≤ nV (c + 1) m * nV (c' + 1) m := mul_nonneg (nV_pos (by omega) m).le (nV_pos (by omega) m).le
    have := lap_decay hx hxy (p := if P = Q then eePol (c + 1) (c' + 1) m else emPol (c + 1) (c' + 1) m) fun t ht => by
      split
      · exact eePol_nonneg _ _ m ht.le
      · exact emPol_nonneg _ _ m ht.le
    calc _ ≤ nV (c + 1) m * nV (c' + 1) m * (Real.exp (-(y - x)) * lap x (if P = Q then eePol (c + 1) (c' + 1) m else emPol (c + 1) (c' + 1) m)) :=
          mul_le_mul_of_nonneg_left this h0
      _ = _ := by ring
  unfold kern
  have h1 := Real.sqrt_nonneg (A i.bodd (c0 + i.div2))
  have h2 := Real.sqrt_nonneg (B s.bodd (c0 + s.div2))
  calc _ ≤ Real.sqrt (A i.bodd (c0 + i.div2)) * (Real.exp (-(y - x)) * fab m x i.bodd s.bodd (c0 + i.div2) (c0 + s.div2)) *
        Real.sqrt (B s.bodd (c0 + s.div2)) := by
        have := hf i.bodd s.bodd (c0 + i.div2) (c0 + s.div2)
        gcongr
    _ = _ := by ring

/-! ## Reflection amplitudes of a sphere -/

/-- `A` are the amplitudes of the Mie coefficients of a sphere of the material `m` and the radius `r` at the wavenumber `k`. -/
def Amp (m md : Material) (k r σ : ℝ) (A : Bool → ℕ → ℝ) : Prop :=
  ∃ (c : MieCoef) (b : Medium), (∀ l, 1 ≤ l → mie exactBes exactBes m md l k r = .ok ⟨c.TE l, c.TM l, c.ln l⟩) ∧ md.medium k = .ok b ∧
    Reflects c σ (k * r * b.n) A

theorem Amp.reflects {m md : Material} {k r σ : ℝ} {A : Bool → ℕ → ℝ} (h : Amp m md k r σ A) {c : MieCoef} {b : Medium} (hb : md.medium k = .ok b)
    (hc : ∀ l, 1 ≤ l → mie exactBes exactBes m md l k r = .ok ⟨c.TE l, c.TM l, c.ln l⟩) : Reflects c σ (k * r * b.n) A := by
  obtain ⟨c', b', h1, h2, h3⟩ := h
  rw [hb] at h2
  injection h2 with h2
  subst h2
  intro i
  have e := h1 (i + 1) (by omega)
  rw [hc (i + 1) (by omega)] at e
  injection e with e
  injection e with e1 e2 e3
  rw [e1, e2, e3]
  exact h3 i

theorem amp_exists {m md : Material} (h : SphereMat m) (hd : MediumMat md) {k r σ : ℝ} (hk : 0 < k) (hr : 0 < r) (hσ : DenseSign m md k σ) :
    ∃ A, Amp m md k r σ A := by
  obtain ⟨a, b, S⟩ := finitePair_exists h.phys h.phys hd.cls hd.phys hk hr hr (L := 2 * r + 1)
    (by rw [muV_of_none hd.mag, Real.sqrt_one]; linarith)
  obtain ⟨A, hA⟩ := reflects_of_mie hd.cls hd.phys hk hr S.hmed hσ S.ha
  exact ⟨A, a, _, S.ha, S.hmed, hA⟩

/-- `ln det(1 - M)` of one `m` from the amplitudes of the two spheres. -/
theorem lnDetV_kern {P : PairIn} (h : PairOK P) {m : ℕ} (hm : max 1 m ≤ P.lmax) {k : ℝ} (hk : 0 < k) {σa σb : ℝ} {A B : Bool → ℕ → ℝ}
    (hA : Amp P.mat1 P.mat3 k P.r1 σa A) (hB : Amp P.mat2 P.mat3 k P.r2 σb B) :
    HSContr (kern m (k * P.L * Real.sqrt (P.mat3.epsV k)) (m - 1) A B) (Real.exp (-(2 * optGap ⟨P.mat3.epsV k, 1⟩ P.r1 P.r2 P.L k)))
        (pairTrace ⟨P.mat3.epsV k, 1⟩ P.r1 P.r2 P.L k m) ∧
      lnDetV P m k = Real.log (1 - gram (σa * σb) (kern m (k * P.L * Real.sqrt (P.mat3.epsV k)) (m - 1) A B)
        (2 * (P.lmax + 1 - transLmin m)) (2 * (P.lssmax + 1 - transLmin m))).det := by
  obtain ⟨a, b, S, hBl⟩ := h.blocks hk
  obtain ⟨Bl, hBl, -, e⟩ := hBl m hm
  obtain ⟨-, h2, h3⟩ := S.array_of m (hA.reflects S.hmed S.ha) (hB.reflects S.hmed S.hb)
  refine ⟨h2, ?_⟩
  rw [e, (det_reindex (h3 hBl)).1]

/-! ## Exchange of the spheres -/

/-- The same pair with the spheres in the opposite order. -/
def PairIn.swap (P : PairIn) : PairIn := ⟨P.mat2, P.mat1, P.mat3, P.r2, P.r1, P.L, P.lssmax, P.lmax, P.precision⟩

theorem PairOK.swap {P : PairIn} (h : PairOK P) (hl : P.lmax = P.lssmax) : PairOK P.swap :=
  ⟨h.m2, h.m1, h.m3, h.h2, h.h1, by have := h.sep; simp only [PairIn.swap]; linarith, h.hl.trans h.hls, hl.ge⟩

theorem lnDetV_swap {P : PairIn} (h : PairOK P) (hl : P.lmax = P.lssmax) {m : ℕ} (hm : max 1 m ≤ P.lmax) {k : ℝ} (hk : 0 < k) :
    lnDetV P.swap m k = lnDetV P m k := by
  obtain ⟨σa, ea⟩ := dense_total h.m1 h.m3 hk
  obtain ⟨σb, eb⟩ := dense_total h.m2 h.m3 hk
  obtain ⟨A, hA⟩ := amp_exists h.m1 h.m3 hk h.h1 ea
  obtain ⟨B, hB⟩ := amp_exists h.m2 h.m3 hk h.h2 eb
  rw [(lnDetV_kern h hm hk hA hB).2, (lnDetV_kern (h.swap hl) (hm.trans h.hls) hk (A := B) (B := A) hB hA).2, gram_swap_det, mul_comm σb]
  simp only [PairIn.swap]
  congr 4
  funext i s
  exact kern_swap _ _ _ _ _ _ _

/-! ## Distance -/

/-- The same pair at another distance. -/
def PairIn.at (P : PairIn) (L : ℝ) : PairIn := { P with L := L }

theorem PairOK.at {P : PairIn} (h : PairOK P) {L : ℝ} (hL : P.L ≤ L) : PairOK (P.at L) :=
  ⟨h.m1, h.m2, h.m3, h.h1, h.h2, h.sep.trans_le hL, h.hl, h.hls⟩

theorem lnDetV_far {P : PairIn} (h : PairOK P) {L : ℝ} (hL : P.L ≤ L) {m : ℕ} (hm : max 1 m ≤ P.lmax) {k : ℝ} (hk : 0 < k) {σ : ℝ}
    (ea : DenseSign P.mat1 P.mat3 k σ) (eb : DenseSign P.mat2 P.mat3 k σ) :
    -lnDetV (P.at L) m k ≤ Real.exp (-(2 * k * (L - P.L))) * -lnDetV P m k := by
  obtain ⟨A, hA⟩ := amp_exists h.m1 h.m3 hk h.h1 ea
  obtain ⟨B, hB⟩ := amp_exists h.m2 h.m3 hk h.h2 eb
  obtain ⟨g1, e1⟩ := lnDetV_kern h hm hk hA hB
  obtain ⟨g2, e2⟩ := lnDetV_kern (h.at hL) hm hk hA hB
  have hs : σ * σ = 1 := ea.one eb rfl
  rw [e1, e2, hs]
  have hε := h.m3.one_le hk
  have h1 : 1 ≤ Real.sqrt (P.mat3.epsV k) := Real.one_le_sqrt.mpr hε
  have hL0 : 0 < P.L := by linarith [h.sep, h.h1, h.h2]
  have hx : 0 < k * P.L * Real.sqrt (P.mat3.epsV k) := by positivity
  have hxy : k * P.L * Real.sqrt (P.mat3.epsV k) + k * (L - P.L) ≤ k * L * Real.sqrt (P.mat3.epsV k) := by
    have : k * (L - P.L) * 1 ≤ k * (L - P.L) * Real.sqrt (P.mat3.epsV k) := mul_le_mul_of_nonneg_left h1 (mul_nonneg hk.le (by linarith))
    linarith
  have hd : 0 ≤ k * (L - P.L) := mul_nonneg hk.le (by linarith)
  have := g1.compare (H' := kern m (k * L * Real.sqrt (P.mat3.epsV k)) (m - 1) A B) (c := Real.exp (-(k * (L - P.L)))) g2 (Real.exp_pos _).le
    (Real.exp_le_one_iff.mpr (by linarith)) (n := 2 * (P.lmax + 1 - transLmin m)) (p := 2 * (P.lssmax + 1 - transLmin m))
    (fun i _ s _ => kern_nonneg (by linarith) _ _ _ _ _) (fun i _ s _ => kern_nonneg hx _ _ _ _ _) (fun i _ s _ => by
      refine (kern_decay hx (by linarith) _ _ _ _ _).trans (mul_le_mul_of_nonneg_right (Real.exp_le_exp.mpr ?_) (kern_nonneg hx _ _ _ _ _))
      linarith)
  rw [← Real.exp_nat_mul] at this
  rw [show Real.exp (-(2 * k * (L - P.L))) = Real.exp ((2 : ℕ) * -(k * (L - P.L))) by congr 1; push_cast; ring]
  exact this

end CasSph
