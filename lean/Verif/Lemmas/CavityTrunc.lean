import Verif.Lemmas.CavityStronger
import Verif.Lemmas.Truncation
import Verif.Lemmas.CavityCont

/-! # How much the determinants of a sphere inside a cavity change when rows and columns are left out -/

namespace CasSph

open Spec Filter Topology Matrix Set

section
variable {P : PairIn} {k : ℝ}

/-- The estimate of one determinant by the bound of C120. -/
theorem cav_kern_bound (h : CavOK P) (hk : 0 < k) {s : ℝ} (hs : 1 ≤ s) (m : ℕ) :
    3 * (Real.exp (-(k * s * cavGap P)) * (2 * cavRatio P ^ (m - 1) / (1 - cavRatio P))) / (1 - min (Real.exp (-(k * s * cavGap P))) (cavRatio P)) ≤
      cavBound P k * cavRatio P ^ (m - 1) := by
  obtain ⟨q0, q1⟩ := h.ratio
  have e3 : Real.exp (-(k * s * cavGap P)) ≤ Real.exp (-(k * cavGap P)) := by
    rw [Real.exp_le_exp]
    have : k * cavGap P ≤ k * cavGap P * s := le_mul_of_one_le_right (mul_pos hk h.gap_pos).le hs
    linarith
  have e0 := Real.exp_pos (-(k * s * cavGap P))
  unfold cavBound
  generalize Real.exp (-(k * s * cavGap P)) = E at *
  generalize Real.exp (-(k * cavGap P)) = G at *
  have hmin : min E (cavRatio P) ≤ min G (cavRatio P) := min_le_min_right _ e3
  have hG1 : min G (cavRatio P) < 1 := (min_le_right _ _).trans_lt q1
  have hEG : E / (1 - min E (cavRatio P)) ≤ G / (1 - min G (cavRatio P)) := div_le_div₀ (by linarith) e3 (by linarith) (by linarith)
  have hC : 0 ≤ 6 * cavRatio P ^ (m - 1) / (1 - cavRatio P) := by
    have : 0 < 1 - cavRatio P := by linarith
    positivity
  calc 3 * (E * (2 * cavRatio P ^ (m - 1) / (1 - cavRatio P))) / (1 - min E (cavRatio P)) =
        6 * cavRatio P ^ (m - 1) / (1 - cavRatio P) * (E / (1 - min E (cavRatio P))) := by ring
    _ ≤ 6 * cavRatio P ^ (m - 1) / (1 - cavRatio P) * (G / (1 - min G (cavRatio P))) := mul_le_mul_of_nonneg_left hEG hC
    _ = _ := by rw [div_mul_div_comm, div_mul_eq_mul_div]; congr 1; ring

/-- The kernel of an arrangement for arbitrary amplitudes below those of perfect conductors. -/
theorem CavOK.contr (h : CavOK P) (hk : 0 < k) {s : ℝ} (hs : 1 ≤ s) (fl : Bool) (m : ℕ) {A B : Bool → ℕ → ℝ}
    (hA : ∀ Q c, 0 ≤ A Q c ∧ A Q c ≤ pecR (xor fl Q) c (k * s * P.r1)) (hB : ∀ Q c, 0 ≤ B Q c ∧ B Q c ≤ cavR (xor fl Q) c (k * s * P.r2)) :
    ∃ θ T, HSContr (kernC m (k * s * P.L) (m - 1) A B) θ T ∧ T / (1 - θ) ≤ cavBound P k * cavRatio P ^ (m - 1) := by
  have hs0 : 0 < k * s := mul_pos hk (by linarith)
  have hρ0 := mul_pos hs0 h.h1
  have hx0 := mul_pos hs0 h.hL
  obtain ⟨y, hy⟩ : ∃ y, y = k * s * (P.r2 - P.L) := ⟨_, rfl⟩
  have hgap : y - k * s * P.r1 = k * s * cavGap P := by rw [hy]; unfold cavGap; ring
  have hg0 := mul_pos hs0 h.gap_pos
  have hq : k * s * P.r1 / y = cavRatio P := by rw [hy, mul_div_mul_left _ _ hs0.ne']; rfl
  have hyx : k * s * P.r2 = y + k * s * P.L := by rw [hy]; ring
  have g := kernC_contr (m := m) (c0 := m - 1) (by omega) (by omega) hρ0 (y := y) (by linarith) hx0 fl (fun Q c => (hA Q c).1) (fun Q c => (hA Q c).2)
    (fun Q c => (hB Q c).1) (fun Q c => by rw [← hyx]; exact (hB Q c).2)
  rw [hgap, hq] at g
  refine ⟨_, _, g, le_trans ?_ (cav_kern_bound h hk hs m)⟩
  refine div_le_div_of_nonneg_right ?_ (by linarith [g.lt])
  linarith [g.T_nonneg]

/-- A sphere that is not smaller and a wall that is not larger. -/
structure CavFits (P : PairIn) (R1 R2 : ℝ) : Prop where
  r1 : P.r1 ≤ R1
  r2 : R2 ≤ P.r2
  in1 : P.L + R1 < P.r2
  in2 : P.L + P.r1 < R2

variable {R1 R2 : ℝ}

theorem CavFits.ok1 (hR : CavFits P R1 R2) (h : CavOK P) : CavOK { P with r1 := R1 } :=
  ⟨h.m1, h.m2, h.m3, h.h1.trans_le hR.r1, h.hL, hR.in1, h.hl, h.hls⟩

theorem CavFits.ok2 (hR : CavFits P R1 R2) (h : CavOK P) : CavOK { P with r2 := R2 } :=
  ⟨h.m1, h.m2, h.m3, h.h1, h.hL, hR.in2, h.hl, h.hls⟩

theorem CavFits.pos2 (hR : CavFits P R1 R2) (h : CavOK P) : 0 < R2 := by linarith [hR.in2, h.hL, h.h1]

/-- The amplitude of a perfectly conducting wall falls with the radius. -/
theorem cavR_power (Q : Bool) (c : ℕ) {t ρ : ℝ} (ht : 0 < t) (ht1 : t ≤ 1) (hρ : 0 < ρ) : cavR Q c ρ ≤ t ^ (2 * c + 1) * cavR Q c (t * ρ) := by
  have h1 := pecR_power Q c ht ht1 hρ
  have p1 := pecR_pos Q c hρ
  have p2 := pecR_pos Q c (mul_pos ht hρ)
  unfold cavR
  rw [← div_eq_mul_inv, le_div_iff₀ p2, inv_mul_le_iff₀ p1]
  linarith

theorem lnGeo_trunc_same (h : CavOK P) (hR : CavFits P R1 R2) (hk : 0 < k) {σ : ℝ} (ea : DenseSign P.mat1 P.mat3 k σ) (eb : DenseSign P.mat2 P.mat3 k σ)
    {a b a' b' m : ℕ} (ha : 1 ≤ a) (hab : a ≤ b) (haa : a ≤ a') (hbb : b ≤ b') (hab' : a' ≤ b') (hm : m ≤ a') :
    |lnGeo (P.cut a' b') m k - (if m ≤ a then lnGeo (P.cut a b) m k else 0)| ≤
      (P.r1 / R1) ^ (2 * a + 1) * (cavBound { P with r1 := R1 } k * cavRatio { P with r1 := R1 } ^ (m - 1)) +
      (R2 / P.r2) ^ (2 * b + 1) * (cavBound { P with r2 := R2 } k * cavRatio { P with r2 := R2 } ^ (m - 1)) := by
  have hr1 := h.h1
  have hr2 := h.r2_pos
  have p1 := h.h1.trans_le hR.r1
  have p2 := hR.pos2 h
  have hs1 : 1 ≤ Real.sqrt (P.mat3.epsV k) := Real.one_le_sqrt.mpr (h.m3.one_le hk)
  have hs0 : 0 < k * Real.sqrt (P.mat3.epsV k) := mul_pos hk (by linarith)
  obtain ⟨A, B, eA, eB, hA, hB, hw'⟩ := (h.cut (ha.trans haa) hab').kernel hk (σa := σ) (σb := σ) ea eb
  obtain ⟨A2, B2, eA2, eB2, -, -, hw⟩ := (h.cut ha hab).kernel hk (σa := σ) (σb := σ) ea eb
  obtain rfl : A2 = A := funext fun Q => funext fun i => (eA2 Q i).trans (eA Q i).symm
  obtain rfl : B2 = B := funext fun Q => funext fun i => (eB2 Q i).trans (eB Q i).symm
  have es : σ * σ = 1 := by rcases ea.sign with e | e <;> rw [e] <;> norm_num
  rw [es] at hw hw'
  simp only [PairIn.cut] at hA hB hw hw'
  set s := Real.sqrt (P.mat3.epsV k) with hsd
  set fl := flipOf σ
  set x := k * s * P.L with hx
  have hx0 : 0 < x := mul_pos hs0 h.hL
  have e0 : (if m ≤ a then lnGeo (P.cut a b) m k else 0) = Real.log (1 - gram 1 (kernC m x (m - 1) A2 B2)
      (2 * (a + 1 - transLmin m)) (2 * (b + 1 - transLmin m))).det := by
    split_ifs with hma
    · exact hw m hma
    · have hz : 2 * (a + 1 - transLmin (m : ℤ)) = 0 := by unfold transLmin; omega
      rw [hz, Matrix.det_isEmpty, Real.log_one]
  rw [e0, show lnGeo (P.cut a' b') m k = _ from hw' m hm]
  have pX : ∀ Q c, A2 Q c ≤ (P.r1 / R1) ^ (2 * c + 1) * pecR (xor fl Q) c (k * s * R1) := fun Q c => by
    have := pecR_power (xor fl Q) c (q := P.r1 / R1) (ρ := k * s * R1) (div_pos hr1 p1) ((div_le_one p1).mpr hR.r1) (mul_pos hs0 p1)
    rw [show P.r1 / R1 * (k * s * R1) = k * s * P.r1 by field_simp] at this
    exact (hA Q c).2.trans this
  have pY : ∀ Q c, B2 Q c ≤ (R2 / P.r2) ^ (2 * c + 1) * cavR (xor fl Q) c (k * s * R2) := fun Q c => by
    have := cavR_power (xor fl Q) c (t := R2 / P.r2) (ρ := k * s * P.r2) (div_pos p2 hr2) ((div_le_one hr2).mpr hR.r2) (mul_pos hs0 hr2)
    rw [show R2 / P.r2 * (k * s * P.r2) = k * s * R2 by field_simp] at this
    exact (hB Q c).2.trans this
  have q1 := div_pos hr1 p1
  have q2 := div_pos p2 hr2
  have q1' := (div_le_one p1).mpr hR.r1
  have q2' := (div_le_one hr2).mpr hR.r2
  have posX : ∀ Q c, 0 < pecR (xor fl Q) c (k * s * R1) := fun Q c => pecR_pos _ _ (mul_pos hs0 p1)
  have posY : ∀ Q c, 0 < cavR (xor fl Q) c (k * s * R2) := fun Q c => cavR_pos _ _ (mul_pos hs0 p2)
  have cX : ∀ Q c, 0 ≤ A2 Q c ∧ A2 Q c ≤ pecR (xor fl Q) c (k * s * R1) := fun Q c =>
    ⟨(hA Q c).1, (pX Q c).trans (mul_le_of_le_one_left (posX Q c).le (pow_le_one₀ q1.le q1'))⟩
  have cY : ∀ Q c, 0 ≤ B2 Q c ∧ B2 Q c ≤ cavR (xor fl Q) c (k * s * R2) := fun Q c =>
    ⟨(hB Q c).1, (pY Q c).trans (mul_le_of_le_one_left (posY Q c).le (pow_le_one₀ q2.le q2'))⟩
  obtain ⟨θ, T, g, -⟩ := h.contr hk hs1 fl m hA hB
  obtain ⟨θ1, T1, g1, u1⟩ := (hR.ok1 h).contr hk hs1 fl m (A := fun Q c => pecR (xor fl Q) c (k * s * R1)) (B := B2) (fun Q c => ⟨(posX Q c).le, le_rfl⟩) hB
  obtain ⟨θ2, T2, g2, u2⟩ := (hR.ok2 h).contr hk hs1 fl m (A := A2) (B := fun Q c => cavR (xor fl Q) c (k * s * R2)) hA (fun Q c => ⟨(posY Q c).le, le_rfl⟩)
  have hs2 : ∀ i, sgC (m - 1) i * sgC (m - 1) i = 1 := fun i => sgI_sq _ _
  have idx : ∀ {n i : ℕ}, 2 * (n + 1 - transLmin (m : ℤ)) ≤ i → n ≤ m - 1 + i.div2 := by
    intro n i hi
    rw [Nat.div2_val]
    unfold transLmin at hi
    omega
  have rng := fun {A' X : Bool → ℕ → ℝ} (hX : ∀ Q c, 0 ≤ A' Q c ∧ A' Q c ≤ X Q c) (i : ℕ) =>
    (sqrt_ratio (hX i.bodd (m - 1 + i.div2)).1 (hX i.bodd (m - 1 + i.div2)).2).2
  have fac : ∀ {X Y : Bool → ℕ → ℝ} (_ : ∀ Q c, 0 ≤ A2 Q c ∧ A2 Q c ≤ X Q c) (_ : ∀ Q c, 0 ≤ B2 Q c ∧ B2 Q c ≤ Y Q c) (i t : ℕ),
      sgC (m - 1) i * kernC m x (m - 1) A2 B2 i t * sgC (m - 1) t =
        (Real.sqrt (A2 i.bodd (m - 1 + i.div2)) / Real.sqrt (X i.bodd (m - 1 + i.div2))) *
        (sgC (m - 1) i * kernC m x (m - 1) X Y i t * sgC (m - 1) t) *
        (Real.sqrt (B2 t.bodd (m - 1 + t.div2)) / Real.sqrt (Y t.bodd (m - 1 + t.div2))) := by
    intro X Y hX hY i t
    unfold kernC kernOf
    have q1 := (sqrt_ratio (hX i.bodd (m - 1 + i.div2)).1 (hX i.bodd (m - 1 + i.div2)).2).1
    have q2 := (sqrt_ratio (hY t.bodd (m - 1 + t.div2)).1 (hY t.bodd (m - 1 + t.div2)).2).1
    have hmul : ∀ {x y a b c d f g h : ℝ}, x = a * b → y = c * d → g * (x * f * y) * h = a * (g * (b * f * d) * h) * c := by
      rintro x y a b c d f g h rfl rfl; ring
    exact hmul q1 q2
  have cA : ∀ Q c, 0 ≤ A2 Q c ∧ A2 Q c ≤ A2 Q c := fun Q c => ⟨(hA Q c).1, le_rfl⟩
  have cB : ∀ Q c, 0 ≤ B2 Q c ∧ B2 Q c ≤ B2 Q c := fun Q c => ⟨(hB Q c).1, le_rfl⟩
  have nn : ∀ {X Y : Bool → ℕ → ℝ} (_ : ∀ Q c, 0 ≤ X Q c) (i t : ℕ), 0 ≤ sgC (m - 1) i * kernC m x (m - 1) X Y i t * sgC (m - 1) t :=
    fun hX i t => (kernC_signed (by omega) hx0.le le_rfl hX (fun _ _ => le_rfl) (fun _ _ => le_rfl) i t).1
  have key := trunc_both (show 2 * (a + 1 - transLmin (m : ℤ)) ≤ 2 * (a' + 1 - transLmin (m : ℤ)) by omega)
    (show 2 * (b + 1 - transLmin (m : ℤ)) ≤ 2 * (b' + 1 - transLmin (m : ℤ)) by omega)
    (u1 := (P.r1 / R1) ^ (2 * a + 1)) (u2 := (R2 / P.r2) ^ (2 * b + 1))
    (rng cX) (rng cB) (fun i hi => ratio_sq (hA _ _).1 ((pX _ _).trans (mul_le_mul_of_nonneg_right
      (pow_le_pow_of_le_one q1.le q1' (by have := idx hi; omega)) (posX _ _).le)) (posX _ _)) (by positivity) (fac cX cB) (nn fun Q c => (posX Q c).le)
    (rng cA) (rng cY) (fun i hi => ratio_sq (hB _ _).1 ((pY _ _).trans (mul_le_mul_of_nonneg_right
      (pow_le_pow_of_le_one q2.le q2' (by have := idx hi; omega)) (posY _ _).le)) (posY _ _)) (by positivity) (fac cA cY) (nn fun Q c => (hA Q c).1)
    (g.signs hs2 hs2) (g1.signs hs2 hs2) (g2.signs hs2 hs2) (s := 1) (.inl rfl)
  rw [gram_signs (H := kernC m x (m - 1) A2 B2) hs2 hs2, gram_signs (H := kernC m x (m - 1) A2 B2) hs2 hs2] at key
  refine key.trans (add_le_add (mul_le_mul_of_nonneg_left ?_ (by positivity)) (mul_le_mul_of_nonneg_left ?_ (by positivity)))
  · exact (neg_le_abs _).trans ((((g1.signs hs2 hs2).pos (.inl rfl) _ _).2).trans u1)
  · exact (neg_le_abs _).trans ((((g2.signs hs2 hs2).pos (.inl rfl) _ _).2).trans u2)

/-! ## Repulsion -/

/-- One more row changes `det(1 + K Kᵀ)` at most by the factor `1 + |row|²`. -/
theorem det_rank_one_le {ι κ : Type*} [Fintype ι] [DecidableEq ι] [Fintype κ] (K : Matrix ι κ ℝ) (r : ι → ℝ) :
    (1 + K * Kᵀ + of fun i j => r i * r j).det ≤ (1 + K * Kᵀ).det * (1 + ∑ i, r i ^ 2) := by
  have hB := posDef_one_add K
  have hpos := hB.det_pos
  have hu : IsUnit (1 + K * Kᵀ).det := isUnit_iff_ne_zero.mpr hpos.ne'
  have e : (of fun i j => r i * r j : Matrix ι ι ℝ) = (of fun i (_ : Unit) => r i) * (of fun (_ : Unit) j => r j) := by
    ext i j
    simp [Matrix.mul_apply]
  obtain ⟨w, hw⟩ : ∃ w, w = (1 + K * Kᵀ)⁻¹ *ᵥ r := ⟨_, rfl⟩
  have hr : (1 + K * Kᵀ) *ᵥ w = r := by rw [hw, Matrix.mulVec_mulVec, Matrix.mul_nonsing_inv _ hu, Matrix.one_mulVec]
  have hd : (1 + K * Kᵀ + of fun i j => r i * r j).det = (1 + K * Kᵀ).det * (1 + r ⬝ᵥ w) := by
    rw [e, Matrix.det_add_mul _ _ hu]
    congr 1
    rw [Matrix.det_unique, Matrix.add_apply, Matrix.one_apply_eq]
    congr 1
    rw [Matrix.mul_assoc, hw]
    simp only [Matrix.mul_apply, of_apply, dotProduct, Matrix.mulVec, Finset.mul_sum]
  have h1 : ∑ i, w i ^ 2 ≤ r ⬝ᵥ w := by
    have e1 : r ⬝ᵥ w = w ⬝ᵥ w + (Kᵀ *ᵥ w) ⬝ᵥ (Kᵀ *ᵥ w) := by
      conv_lhs => rw [← hr]
      rw [Matrix.add_mulVec, Matrix.one_mulVec, add_dotProduct, ← Matrix.mulVec_mulVec, dotProduct_comm (K *ᵥ _) w, Matrix.dotProduct_mulVec,
        ← Matrix.mulVec_transpose]
    have e2 : 0 ≤ (Kᵀ *ᵥ w) ⬝ᵥ (Kᵀ *ᵥ w) := Finset.sum_nonneg fun i _ => mul_self_nonneg _
    have e3 : w ⬝ᵥ w = ∑ i, w i ^ 2 := Finset.sum_congr rfl fun i _ => (sq _).symm
    linarith
  have h2 : r ⬝ᵥ w ≤ (∑ i, r i ^ 2 + ∑ i, w i ^ 2) / 2 := by
    rw [← Finset.sum_add_distrib, Finset.sum_div]
    refine Finset.sum_le_sum fun i _ => ?_
    nlinarith [sq_nonneg (r i - w i)]
  rw [hd]
  exact mul_le_mul_of_nonneg_left (by linarith) hpos.le

theorem gram_neg_eq (H : ℕ → ℕ → ℝ) (n p : ℕ) : 1 - gram (-1) H n p = 1 + corner H n p * (corner H n p)ᵀ := by
  unfold gram
  rw [neg_smul, one_smul, sub_neg_eq_add]

theorem gram_neg_pos (H : ℕ → ℕ → ℝ) (n p : ℕ) : 0 < (1 - gram (-1) H n p).det := by
  rw [gram_neg_eq]
  exact zero_lt_one.trans_le (det_one_add_bounds _).1

/-- Repulsion: rows that are left out. -/
theorem rep_rows (H : ℕ → ℕ → ℝ) (p : ℕ) {n N : ℕ} (hn : n ≤ N) :
    Real.log (1 - gram (-1) H N p).det ≤ Real.log (1 - gram (-1) H n p).det + ∑ i ∈ Finset.Ico n N, ∑ s : Fin p, H i s ^ 2 := by
  induction N, hn using Nat.le_induction with
  | base => simp
  | succ N hN ih =>
    rw [Finset.sum_Ico_succ_top hN]
    have p0 := gram_neg_pos H N p
    have p1 := gram_neg_pos H (N + 1) p
    have key : (1 - gram (-1) H (N + 1) p).det ≤ (1 - gram (-1) H N p).det * (1 + ∑ s : Fin p, H N s ^ 2) := by
      rw [gram_neg_eq, gram_neg_eq, det_one_add_mul_comm, det_one_add_mul_comm (corner H N p), corner_transpose, corner_transpose, corner_gram_succ, ← add_assoc]
      exact det_rank_one_le (corner (fun a b => H b a) p N) _
    have hq : 0 ≤ ∑ s : Fin p, H N s ^ 2 := Finset.sum_nonneg fun s _ => sq_nonneg _
    have l1 := Real.log_le_log p1 key
    rw [Real.log_mul p0.ne' (by linarith)] at l1
    have l2 := Real.log_le_sub_one_of_pos (show 0 < 1 + ∑ s : Fin p, H N s ^ 2 by linarith)
    linarith

theorem rep_rows_small {H H' : ℕ → ℕ → ℝ} {u T : ℝ} (p : ℕ) {n N : ℕ} (hn : n ≤ N) (hu : 0 ≤ u) (h : ∀ i s, n ≤ i → H i s ^ 2 ≤ u * H' i s ^ 2)
    (hT : ∑ i, ∑ s, corner H' N p i s ^ 2 ≤ T) :
    Real.log (1 - gram (-1) H N p).det ≤ Real.log (1 - gram (-1) H n p).det + u * T := by
  refine (rep_rows H p hn).trans (add_le_add_right ?_ _)
  calc ∑ i ∈ Finset.Ico n N, ∑ s : Fin p, H i s ^ 2 ≤ ∑ i ∈ Finset.Ico n N, u * ∑ s : Fin p, H' i s ^ 2 := by
        refine Finset.sum_le_sum fun i hi => ?_
        rw [Finset.mul_sum]
        exact Finset.sum_le_sum fun s _ => h i s (Finset.mem_Ico.mp hi).1
    _ ≤ ∑ i ∈ Finset.range N, u * ∑ s : Fin p, H' i s ^ 2 := by
        refine Finset.sum_le_sum_of_subset_of_nonneg (fun i hi => Finset.mem_range.mpr (Finset.mem_Ico.mp hi).2) fun i _ _ => ?_
        exact mul_nonneg hu (Finset.sum_nonneg fun s _ => sq_nonneg _)
    _ = u * ∑ i : Fin N, ∑ s : Fin p, corner H' N p i s ^ 2 := by
        rw [← Finset.mul_sum, ← Fin.sum_univ_eq_sum_range (fun i => ∑ s : Fin p, H' i s ^ 2) N]
        rfl
    _ ≤ _ := mul_le_mul_of_nonneg_left hT hu

/-- Repulsion: rows and columns. -/
theorem rep_both {H H1 H2 : ℕ → ℕ → ℝ} {u1 u2 T1 T2 : ℝ} {n N p q : ℕ} (hn : n ≤ N) (hp : p ≤ q) (u10 : 0 ≤ u1) (u20 : 0 ≤ u2)
    (h1 : ∀ i s, n ≤ i → H i s ^ 2 ≤ u1 * H1 i s ^ 2) (h2 : ∀ i s, p ≤ s → H i s ^ 2 ≤ u2 * H2 i s ^ 2)
    (t1 : ∀ n p, ∑ i, ∑ s, corner H1 n p i s ^ 2 ≤ T1) (t2 : ∀ n p, ∑ i, ∑ s, corner H2 n p i s ^ 2 ≤ T2) :
    |Real.log (1 - gram (-1) H N q).det - Real.log (1 - gram (-1) H n p).det| ≤ u1 * T1 + u2 * T2 := by
  have r1 := rep_rows_small (H := H) (H' := H1) q hn u10 h1 (t1 _ _)
  have r2 := rep_rows_small (H := fun i s => H s i) (H' := fun i s => H2 s i) n hp u20 (fun i s hi => h2 s i hi) (T := T2) (by
    rw [Finset.sum_comm]
    exact t2 n q)
  rw [← gram_swap_det (-1) n q, ← gram_swap_det (-1) n p] at r2
  have hm : Real.log (1 - gram (-1) H n p).det ≤ Real.log (1 - gram (-1) H N q).det := by
    refine Real.log_le_log (gram_neg_pos _ _ _) ?_
    rw [gram_neg_eq, gram_neg_eq]
    exact det_corner_monotone H hn hp
  rw [abs_of_nonneg (by linarith)]
  linarith

/-- The sum of squares for an arrangement of bodies of different contrast. -/
theorem CavOK.hs3 (h : CavOK P) (hk : 0 < k) {s : ℝ} (hs : 1 ≤ s) (fl : Bool) (m : ℕ) {A B : Bool → ℕ → ℝ}
    (hA : ∀ Q c, 0 ≤ A Q c ∧ A Q c ≤ 3 * pecR (xor fl Q) c (k * s * P.r1)) (hB : ∀ Q c, 0 ≤ B Q c ∧ B Q c ≤ cavR (xor fl Q) c (k * s * P.r2)) (n p : ℕ) :
    ∑ i, ∑ t, corner (kernC m (k * s * P.L) (m - 1) A B) n p i t ^ 2 ≤ cavBound P k * cavRatio P ^ (m - 1) := by
  have hs0 : 0 < k * s := mul_pos hk (by linarith)
  have hρ0 := mul_pos hs0 h.h1
  have hx0 := mul_pos hs0 h.hL
  obtain ⟨y, hy⟩ : ∃ y, y = k * s * (P.r2 - P.L) := ⟨_, rfl⟩
  have hgap : y - k * s * P.r1 = k * s * cavGap P := by rw [hy]; unfold cavGap; ring
  have hg0 := mul_pos hs0 h.gap_pos
  have hq : k * s * P.r1 / y = cavRatio P := by rw [hy, mul_div_mul_left _ _ hs0.ne']; rfl
  have hyx : k * s * P.r2 = y + k * s * P.L := by rw [hy]; ring
  have g := kernC_hs (m := m) (c0 := m - 1) (by omega) (by omega) hρ0 (y := y) (by linarith) hx0 fl (C := 3) (by norm_num) (fun Q c => (hA Q c).1)
    (fun Q c => (hA Q c).2) (fun Q c => (hB Q c).1) (fun Q c => by rw [← hyx]; exact (hB Q c).2) n p
  rw [hgap, hq] at g
  refine g.trans (le_trans ?_ (cav_kern_bound h hk hs m))
  obtain ⟨q0, q1⟩ := h.ratio
  have := Real.exp_pos (-(k * s * cavGap P))
  have h1 : 0 ≤ min (Real.exp (-(k * s * cavGap P))) (cavRatio P) := le_min this.le q0.le
  have h2 : min (Real.exp (-(k * s * cavGap P))) (cavRatio P) < 1 := (min_le_right _ _).trans_lt q1
  refine le_div_self ?_ (by linarith) (by linarith)
  have : 0 < 1 - cavRatio P := by linarith
  positivity

theorem lnGeo_trunc_opposite (h : CavOK P) (hR : CavFits P R1 R2) (hk : 0 < k) {σa σb : ℝ} (ea : DenseSign P.mat1 P.mat3 k σa)
    (eb : DenseSign P.mat2 P.mat3 k σb) (hσ : σa ≠ σb)
    {a b a' b' m : ℕ} (ha : 1 ≤ a) (hab : a ≤ b) (haa : a ≤ a') (hbb : b ≤ b') (hab' : a' ≤ b') (hm : m ≤ a') :
    |lnGeo (P.cut a' b') m k - (if m ≤ a then lnGeo (P.cut a b) m k else 0)| ≤
      (P.r1 / R1) ^ (2 * a + 1) * (cavBound { P with r1 := R1 } k * cavRatio { P with r1 := R1 } ^ (m - 1)) +
      (R2 / P.r2) ^ (2 * b + 1) * (cavBound { P with r2 := R2 } k * cavRatio { P with r2 := R2 } ^ (m - 1)) := by
  have hr1 := h.h1
  have hr2 := h.r2_pos
  have p1 := h.h1.trans_le hR.r1
  have p2 := hR.pos2 h
  have hs1 : 1 ≤ Real.sqrt (P.mat3.epsV k) := Real.one_le_sqrt.mpr (h.m3.one_le hk)
  have hs0 : 0 < k * Real.sqrt (P.mat3.epsV k) := mul_pos hk (by linarith)
  obtain ⟨A, B, eA, eB, hA, hB, hw'⟩ := (h.cut (ha.trans haa) hab').kernel hk (σa := σa) (σb := σb) ea eb
  obtain ⟨A2, B2, eA2, eB2, -, -, hw⟩ := (h.cut ha hab).kernel hk (σa := σa) (σb := σb) ea eb
  obtain rfl : A2 = A := funext fun Q => funext fun i => (eA2 Q i).trans (eA Q i).symm
  obtain rfl : B2 = B := funext fun Q => funext fun i => (eB2 Q i).trans (eB Q i).symm
  rw [ea.neg eb hσ] at hw hw'
  have hf : flipOf σa = !flipOf σb := by
    rcases ea.sign with e | e <;> rcases eb.sign with e' | e' <;> rw [e, e'] at hσ ⊢ <;> first | exact absurd rfl hσ | simp [flipOf_one, flipOf_neg]
  rw [hf] at hA
  simp only [PairIn.cut] at hA hB hw hw'
  set s := Real.sqrt (P.mat3.epsV k) with hsd
  set fl := flipOf σb
  set x := k * s * P.L with hx
  have e0 : (if m ≤ a then lnGeo (P.cut a b) m k else 0) = Real.log (1 - gram (-1) (kernC m x (m - 1) A2 B2)
      (2 * (a + 1 - transLmin m)) (2 * (b + 1 - transLmin m))).det := by
    split_ifs with hma
    · exact hw m hma
    · have hz : 2 * (a + 1 - transLmin (m : ℤ)) = 0 := by unfold transLmin; omega
      rw [hz, Matrix.det_isEmpty, Real.log_one]
  rw [e0, show lnGeo (P.cut a' b') m k = _ from hw' m hm]
  have flip3 : ∀ Q c {ρ : ℝ}, 0 < ρ → pecR (xor (!fl) Q) c ρ ≤ 3 * pecR (xor fl Q) c ρ := fun Q c ρ hρ => by
    have := pecR_flip (xor (!fl) Q) c hρ
    rwa [show (!(xor (!fl) Q)) = xor fl Q by cases fl <;> cases Q <;> rfl] at this
  have q1 := div_pos hr1 p1
  have q2 := div_pos p2 hr2
  have q1' := (div_le_one p1).mpr hR.r1
  have q2' := (div_le_one hr2).mpr hR.r2
  have pX : ∀ Q c, A2 Q c ≤ (P.r1 / R1) ^ (2 * c + 1) * (3 * pecR (xor fl Q) c (k * s * R1)) := fun Q c => by
    have := pecR_power (xor (!fl) Q) c (q := P.r1 / R1) (ρ := k * s * R1) q1 q1' (mul_pos hs0 p1)
    rw [show P.r1 / R1 * (k * s * R1) = k * s * P.r1 by field_simp] at this
    exact ((hA Q c).2.trans this).trans (mul_le_mul_of_nonneg_left (flip3 Q c (mul_pos hs0 p1)) (by positivity))
  have pY : ∀ Q c, B2 Q c ≤ (R2 / P.r2) ^ (2 * c + 1) * cavR (xor fl Q) c (k * s * R2) := fun Q c => by
    have := cavR_power (xor fl Q) c (t := R2 / P.r2) (ρ := k * s * P.r2) q2 q2' (mul_pos hs0 hr2)
    rw [show R2 / P.r2 * (k * s * P.r2) = k * s * R2 by field_simp] at this
    exact (hB Q c).2.trans this
  have posX : ∀ Q c, 0 < pecR (xor fl Q) c (k * s * R1) := fun Q c => pecR_pos _ _ (mul_pos hs0 p1)
  have posY : ∀ Q c, 0 < cavR (xor fl Q) c (k * s * R2) := fun Q c => cavR_pos _ _ (mul_pos hs0 p2)
  have hA3 : ∀ Q c, 0 ≤ A2 Q c ∧ A2 Q c ≤ 3 * pecR (xor fl Q) c (k * s * P.r1) := fun Q c => ⟨(hA Q c).1, (hA Q c).2.trans (flip3 Q c (mul_pos hs0 hr1))⟩
  have idx : ∀ {n i : ℕ}, 2 * (n + 1 - transLmin (m : ℤ)) ≤ i → n ≤ m - 1 + i.div2 := by
    intro n i hi
    rw [Nat.div2_val]
    unfold transLmin at hi
    omega
  have sqK : ∀ {X Y : Bool → ℕ → ℝ} (_ : ∀ Q c, 0 ≤ X Q c) (_ : ∀ Q c, 0 ≤ Y Q c) (i t : ℕ), kernC m x (m - 1) X Y i t ^ 2 =
      X i.bodd (m - 1 + i.div2) * kernC m x (m - 1) (fun _ _ => 1) (fun _ _ => 1) i t ^ 2 * Y t.bodd (m - 1 + t.div2) := by
    intro X Y hX hY i t
    unfold kernC kernOf
    rw [Real.sqrt_one, one_mul, mul_one, mul_pow, mul_pow, Real.sq_sqrt (hX _ _), Real.sq_sqrt (hY _ _)]
  refine rep_both (H1 := kernC m x (m - 1) (fun Q c => 3 * pecR (xor fl Q) c (k * s * R1)) B2)
    (H2 := kernC m x (m - 1) A2 (fun Q c => cavR (xor fl Q) c (k * s * R2)))
    (show 2 * (a + 1 - transLmin (m : ℤ)) ≤ 2 * (a' + 1 - transLmin (m : ℤ)) by omega)
    (show 2 * (b + 1 - transLmin (m : ℤ)) ≤ 2 * (b' + 1 - transLmin (m : ℤ)) by omega) (by positivity) (by positivity) (fun i t hi => ?_) (fun i t ht => ?_)
    ((hR.ok1 h).hs3 hk hs1 fl m (fun Q c => ⟨by have := posX Q c; linarith, le_rfl⟩) hB)
    ((hR.ok2 h).hs3 hk hs1 fl m hA3 (fun Q c => ⟨(posY Q c).le, le_rfl⟩))
  · rw [sqK (fun Q c => (hA Q c).1) (fun Q c => (hB Q c).1), sqK (fun Q c => by have := posX Q c; linarith) (fun Q c => (hB Q c).1), ← mul_assoc, ← mul_assoc]
    refine mul_le_mul_of_nonneg_right (mul_le_mul_of_nonneg_right ((pX _ _).trans (mul_le_mul_of_nonneg_right ?_ ?_)) (sq_nonneg _)) (hB _ _).1
    · exact pow_le_pow_of_le_one q1.le q1' (by have := idx hi; omega)
    · have := posX i.bodd (m - 1 + i.div2); linarith
  · rw [sqK (fun Q c => (hA Q c).1) (fun Q c => (hB Q c).1), sqK (fun Q c => (hA Q c).1) (fun Q c => (posY Q c).le),
      mul_left_comm ((R2 / P.r2) ^ (2 * b + 1))]
    refine mul_le_mul_of_nonneg_left ((pY _ _).trans (mul_le_mul_of_nonneg_right ?_ (posY _ _).le)) (mul_nonneg (hA _ _).1 (sq_nonneg _))
    exact pow_le_pow_of_le_one q2.le q2' (by have := idx ht; omega)

/-! ## All materials -/

theorem lnGeo_trunc (h : CavOK P) (hR : CavFits P R1 R2) (hk : 0 < k)
    {a b a' b' m : ℕ} (ha : 1 ≤ a) (hab : a ≤ b) (haa : a ≤ a') (hbb : b ≤ b') (hab' : a' ≤ b') (hm : m ≤ a') :
    |lnGeo (P.cut a' b') m k - (if m ≤ a then lnGeo (P.cut a b) m k else 0)| ≤
      (P.r1 / R1) ^ (2 * a + 1) * (cavBound { P with r1 := R1 } k * cavRatio { P with r1 := R1 } ^ (m - 1)) +
      (R2 / P.r2) ^ (2 * b + 1) * (cavBound { P with r2 := R2 } k * cavRatio { P with r2 := R2 } ^ (m - 1)) := by
  obtain ⟨σa, ea⟩ := dense_total h.m1 h.m3 hk
  obtain ⟨σb, eb⟩ := dense_total h.m2 h.m3 hk
  by_cases e : σa = σb
  · subst e
    exact lnGeo_trunc_same h hR hk ea eb ha hab haa hbb hab' hm
  · exact lnGeo_trunc_opposite h hR hk ea eb e ha hab haa hbb hab' hm

/-- The sum of a geometric bound over all `m`. -/
theorem cav_msum_le (h : CavOK P) (hk : 0 < k) (n : ℕ) :
    cavBound P k * cavRatio P ^ (0 - 1) + 2 * ∑ m ∈ Finset.Icc 1 n, cavBound P k * cavRatio P ^ (m - 1) ≤ cavExp P k := by
  obtain ⟨q0, q1⟩ := h.ratio
  have hb := cavBound_pos h k
  obtain ⟨-, g2⟩ := mSum_geometric (v := fun m (_ : Fin 1) => cavBound P k * cavRatio P ^ (m - 1)) (i := 0) (le_refl n) q0.le q1
    (C := cavBound P k) fun m hm => by rw [abs_of_nonneg (by positivity)]
  refine (le_abs_self _).trans (g2.trans ?_)
  have := (cavBound_le h hk).1
  have hq : 0 < 1 - cavRatio P := sub_pos.mpr h.ratio.2
  unfold cavExp
  calc 3 * cavBound P k / (1 - cavRatio P) ≤ 3 * (6 * Real.exp (-(k * cavGap P)) / (1 - cavRatio P) ^ 2) / (1 - cavRatio P) := by gcongr
    _ = _ := by field_simp; ring

/-- The bound on the change at the wavenumber `k`. -/
noncomputable def cavTrunc (P : PairIn) (R1 R2 k : ℝ) : ℝ :=
  (P.r1 / R1) ^ (2 * P.lmax + 1) * cavExp { P with r1 := R1 } k + (R2 / P.r2) ^ (2 * P.lssmax + 1) * cavExp { P with r2 := R2 } k

theorem CavOK.sum_trunc (h : CavOK P) (hR : CavFits P R1 R2) (hk : 0 < k) {a b : ℕ} (ha : P.lmax ≤ a) (hb : P.lssmax ≤ b) (hab : a ≤ b) :
    |cavSum (P.cut a b) k - cavSum P k| ≤ cavTrunc P R1 R2 k := by
  have key := fun m (hm : m ≤ a) => lnGeo_trunc h hR hk h.hl h.hls ha hb hab hm
  rw [cut_self] at key
  have es : ∑ m ∈ Finset.Icc 1 P.lmax, lnGeo P m k = ∑ m ∈ Finset.Icc 1 a, if m ≤ P.lmax then lnGeo P m k else 0 := by
    rw [← Finset.sum_filter]
    refine Finset.sum_congr ?_ fun _ _ => rfl
    ext m
    simp only [Finset.mem_filter, Finset.mem_Icc]
    omega
  have k0 := key 0 (by omega)
  rw [if_pos (by omega)] at k0
  have ks := Finset.sum_le_sum fun m (hm : m ∈ Finset.Icc 1 a) => key m (Finset.mem_Icc.mp hm).2
  have ka := Finset.abs_sum_le_sum_abs (fun m => lnGeo (P.cut a b) m k - (if m ≤ P.lmax then lnGeo P m k else 0)) (Finset.Icc 1 a)
  rw [Finset.sum_sub_distrib] at ka
  simp only [Finset.sum_add_distrib, ← Finset.mul_sum] at ks
  have u1 := mul_le_mul_of_nonneg_left (cav_msum_le (hR.ok1 h) hk a) (pow_nonneg (div_pos h.h1 (h.h1.trans_le hR.r1)).le (2 * P.lmax + 1))
  have u2 := mul_le_mul_of_nonneg_left (cav_msum_le (hR.ok2 h) hk a) (pow_nonneg (div_pos (hR.pos2 h) h.r2_pos).le (2 * P.lssmax + 1))
  simp only [← Finset.mul_sum] at u1 u2
  unfold cavSum cavTrunc
  rw [show (P.cut a b).lmax = a from rfl, es, show ∀ x y u v : ℝ, x + 2 * u - (y + 2 * v) = (x - y) + 2 * (u - v) by intros; ring]
  refine (abs_add_le _ _).trans ?_
  rw [abs_mul, abs_of_pos (two_pos : (0 : ℝ) < 2)]
  linarith

end

end CasSph
