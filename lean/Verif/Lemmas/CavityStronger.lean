import Verif.Lemmas.InnerSign
import Verif.Lemmas.WallStronger
import Verif.Lemmas.StrongerDet

/-! # Comparison of the determinants of two arrangements of a sphere inside a cavity -/

namespace CasSph

open Spec Filter Topology Matrix Set

/-! ## Arrays with signs -/

section
variable {H : ℕ → ℕ → ℝ} {ε δ : ℕ → ℝ}

theorem gram_signs (hε : ∀ i, ε i * ε i = 1) (hδ : ∀ s, δ s * δ s = 1) (σ : ℝ) (n p : ℕ) :
    (1 - gram σ (fun i s => ε i * H i s * δ s) n p).det = (1 - gram σ H n p).det := by
  obtain ⟨E, hE⟩ : ∃ E : Matrix (Fin n) (Fin n) ℝ, E = diagonal fun i => ε i.1 := ⟨_, rfl⟩
  have hEE : E * E = 1 := by rw [hE, diagonal_mul_diagonal, ← diagonal_one]; congr 1; funext i; exact hε i
  have e : gram σ (fun i s => ε i * H i s * δ s) n p = E * gram σ H n p * E := by
    unfold gram
    rw [Matrix.mul_smul, Matrix.smul_mul, hE]
    congr 1
    ext i j
    rw [mul_diagonal, diagonal_mul, Matrix.mul_apply, Matrix.mul_apply, Finset.mul_sum, Finset.sum_mul]
    refine Finset.sum_congr rfl fun s _ => ?_
    simp only [transpose_apply, corner, of_apply]
    calc _ = ε i * (H i s * H j s) * ε j * (δ s * δ s) := by ring
      _ = _ := by rw [hδ, mul_one]
  have e2 : 1 - E * gram σ H n p * E = E * (1 - gram σ H n p) * E := by
    rw [mul_sub, sub_mul, mul_one, hEE]
  have hd : E.det * E.det = 1 := by rw [← det_mul, hEE, det_one]
  rw [e, e2, det_mul, det_mul]
  calc _ = (E.det * E.det) * (1 - gram σ H n p).det := by ring
    _ = _ := by rw [hd, one_mul]

theorem HSContr.signs {θ T : ℝ} (h : HSContr H θ T) (hε : ∀ i, ε i * ε i = 1) (hδ : ∀ s, δ s * δ s = 1) :
    HSContr (fun i s => ε i * H i s * δ s) θ T := by
  refine ⟨h.nonneg, h.lt, fun n p z => ?_, fun n p => ?_⟩
  · refine (le_of_eq ?_).trans ((h.contr n p fun i => z i * ε i).trans (le_of_eq ?_))
    · refine Finset.sum_congr rfl fun s _ => ?_
      have : ∑ i, z i * corner (fun i s => ε i * H i s * δ s) n p i s = δ s * ∑ i, z i * ε i * corner H n p i s := by
        rw [Finset.mul_sum]
        refine Finset.sum_congr rfl fun i _ => ?_
        simp only [corner, of_apply]
        ring
      rw [this, mul_pow, sq (δ s), hδ, one_mul]
    · congr 1
      refine Finset.sum_congr rfl fun i _ => ?_
      rw [mul_pow, sq (ε i), hε, mul_one]
  · refine (le_of_eq ?_).trans (h.hs n p)
    refine Finset.sum_congr rfl fun i _ => Finset.sum_congr rfl fun s _ => ?_
    simp only [corner, of_apply]
    rw [mul_pow, mul_pow, sq (ε i), hε, sq (δ s), hδ, one_mul, mul_one]

end

/-- sign of one row or column of the kernel -/
noncomputable def sgC (c0 i : ℕ) : ℝ := sgI i.bodd (c0 + i.div2 + 1)

theorem kernC_signed {m c0 : ℕ} (hm : m ≤ c0 + 1) {x y : ℝ} (hx : 0 ≤ x) (hxy : x ≤ y) {A B A' B' : Bool → ℕ → ℝ} (hA0 : ∀ P c, 0 ≤ A P c)
    (hA : ∀ P c, A P c ≤ A' P c) (hB : ∀ P c, B P c ≤ B' P c) (i s : ℕ) :
    0 ≤ sgC c0 i * kernC m x c0 A B i s * sgC c0 s ∧ sgC c0 i * kernC m x c0 A B i s * sgC c0 s ≤ sgC c0 i * kernC m y c0 A' B' i s * sgC c0 s := by
  obtain ⟨h1, h2⟩ := tI_sign_mono (m := m) (a := c0 + i.div2 + 1) (b := c0 + s.div2 + 1) (by omega) (by omega) (by omega) i.bodd s.bodd hx hxy
  have e : ∀ (x : ℝ) (A B : Bool → ℕ → ℝ), sgC c0 i * kernC m x c0 A B i s * sgC c0 s = Real.sqrt (A i.bodd (c0 + i.div2)) *
      (sgI i.bodd (c0 + i.div2 + 1) * sgI s.bodd (c0 + s.div2 + 1) * tI m x i.bodd s.bodd (c0 + i.div2 + 1) (c0 + s.div2 + 1)) *
      Real.sqrt (B s.bodd (c0 + s.div2)) := by
    intro x A B
    unfold kernC kernOf sgC tIs
    ring
  rw [e, e]
  refine ⟨by positivity, ?_⟩
  have a1 := Real.sqrt_le_sqrt (hA i.bodd (c0 + i.div2))
  have b1 := Real.sqrt_le_sqrt (hB s.bodd (c0 + s.div2))
  exact mul_le_mul (mul_le_mul a1 h2 h1 (Real.sqrt_nonneg _)) b1 (Real.sqrt_nonneg _) (mul_nonneg (Real.sqrt_nonneg _) (h1.trans h2))

/-- Larger amplitudes and larger distances of the centres: attraction, compared with attraction or repulsion. -/
theorem kernC_compare {m : ℕ} {ρ y x x' σ : ℝ} (hρ : 0 < ρ) (hy : ρ < y) (hx : 0 < x) (hxx : x ≤ x') (fl : Bool) {A B A' B' : Bool → ℕ → ℝ}
    (hA0 : ∀ P c, 0 ≤ A P c) (hB0 : ∀ P c, 0 ≤ B P c) (hA : ∀ P c, A P c ≤ A' P c) (hB : ∀ P c, B P c ≤ B' P c)
    (hA' : ∀ P c, A' P c ≤ pecR (xor fl P) c ρ) (hB' : ∀ P c, B' P c ≤ cavR (xor fl P) c (y + x')) (hσ : σ = 1 ∨ σ = -1) (n p : ℕ) :
    |Real.log (1 - gram σ (kernC m x (m - 1) A B) n p).det| ≤ -Real.log (1 - gram 1 (kernC m x' (m - 1) A' B') n p).det := by
  have hmc : m ≤ (m - 1) + 1 := by omega
  have hc : m - 1 = 0 ∨ m - 1 + 1 = m := by omega
  have hs2 : ∀ i, sgC (m - 1) i * sgC (m - 1) i = 1 := fun i => sgI_sq _ _
  have hA0' : ∀ P c, 0 ≤ A' P c := fun P c => (hA0 P c).trans (hA P c)
  have hB0' : ∀ P c, 0 ≤ B' P c := fun P c => (hB0 P c).trans (hB P c)
  have g1 := (kernC_contr (m := m) hmc hc hρ (y := y + (x' - x)) (by linarith) hx fl hA0 (fun P c => (hA P c).trans (hA' P c)) hB0
    (fun P c => by rw [show y + (x' - x) + x = y + x' by ring]; exact (hB P c).trans (hB' P c))).signs hs2 hs2
  have g2 := (kernC_contr (m := m) hmc hc hρ hy (hx.trans_le hxx) fl hA0' hA' hB0' hB').signs hs2 hs2
  have key := g2.compare g1 zero_le_one le_rfl (n := n) (p := p) (fun i _ s _ => (kernC_signed hmc hx.le hxx hA0 hA hB i s).1)
    (fun i _ s _ => (kernC_signed hmc (hx.le.trans hxx) le_rfl hA0' (fun _ _ => le_rfl) (fun _ _ => le_rfl) i s).1)
    (fun i _ s _ => by rw [one_mul]; exact (kernC_signed hmc hx.le hxx hA0 hA hB i s).2)
  rw [one_pow, one_mul, gram_signs (H := kernC m x' (m - 1) A' B') hs2 hs2] at key
  rw [← gram_signs (H := kernC m x (m - 1) A B) hs2 hs2 σ]
  refine le_trans ?_ key
  rcases hσ with e | e <;> rw [e]
  · rw [abs_of_nonpos (g1.sign _ _).1]
  · rw [abs_of_nonneg (g1.sign _ _).2]
    exact g1.sign_compare fun i _ s _ => (kernC_signed hmc hx.le hxx hA0 hA hB i s).1

/-- Larger amplitudes at the same distance of the centres: repulsion. -/
theorem kernC_repulsion {m : ℕ} {x : ℝ} {A B A' B' : Bool → ℕ → ℝ} (hA0 : ∀ P c, 0 ≤ A P c) (hB0 : ∀ P c, 0 ≤ B P c) (hA : ∀ P c, A P c ≤ A' P c)
    (hB : ∀ P c, B P c ≤ B' P c) (n p : ℕ) : (1 - gram (-1) (kernC m x (m - 1) A B) n p).det ≤ (1 - gram (-1) (kernC m x (m - 1) A' B') n p).det := by
  have e : kernC m x (m - 1) A B = fun i s =>
      (Real.sqrt (A i.bodd (m - 1 + i.div2)) / Real.sqrt (A' i.bodd (m - 1 + i.div2))) * kernC m x (m - 1) A' B' i s *
      (Real.sqrt (B s.bodd (m - 1 + s.div2)) / Real.sqrt (B' s.bodd (m - 1 + s.div2))) := by
    funext i s
    unfold kernC kernOf
    have q1 := (sqrt_ratio (hA0 i.bodd (m - 1 + i.div2)) (hA i.bodd (m - 1 + i.div2))).1
    have q2 := (sqrt_ratio (hB0 s.bodd (m - 1 + s.div2)) (hB s.bodd (m - 1 + s.div2))).1
    have hmul : ∀ {x y a b c d f : ℝ}, x = a * b → y = c * d → x * f * y = a * (b * f * d) * c := by
      rintro x y a b c d f rfl rfl; ring
    exact hmul q1 q2
  rw [e]
  exact gram_neg_scale _ (fun i => (sqrt_ratio (hA0 _ _) (hA _ _)).2) (fun s => (sqrt_ratio (hB0 _ _) (hB _ _)).2) _ _

/-! ## Two arrangements -/

section
variable {P P' : PairIn} {k : ℝ}

/-- The kernel of one wavenumber with its amplitudes. -/
theorem CavOK.kernel (h : CavOK P) (hk : 0 < k) {σa σb : ℝ} (ea : DenseSign P.mat1 P.mat3 k σa) (eb : DenseSign P.mat2 P.mat3 k σb) :
    ∃ A B : Bool → ℕ → ℝ, (∀ Q i, A Q i = ampV P.mat1 P.mat3 P.r1 k Q (i + 1)) ∧ (∀ Q i, B Q i = ampW P.mat2 P.mat3 P.r2 k Q (i + 1)) ∧
      (∀ Q i, 0 ≤ A Q i ∧ A Q i ≤ pecR (xor (flipOf σa) Q) i (k * Real.sqrt (P.mat3.epsV k) * P.r1)) ∧
      (∀ Q i, 0 ≤ B Q i ∧ B Q i ≤ cavR (xor (flipOf σb) Q) i (k * Real.sqrt (P.mat3.epsV k) * P.r2)) ∧
      ∀ m ≤ P.lmax, lnGeo P m k = Real.log (1 - gram (σa * σb) (kernC m (k * Real.sqrt (P.mat3.epsV k) * P.L) (m - 1) A B)
        (2 * (P.lmax + 1 - transLmin m)) (2 * (P.lssmax + 1 - transLmin m))).det := by
  have hr2 := h.r2_pos
  obtain ⟨a, ha⟩ := mieCoef_exists h.m1.phys h.m3.phys h.m3.cls hk h.h1
  obtain ⟨b, hb⟩ := wallCoef_exists h.m2.phys h.m3.phys h.m3.cls hk hr2
  have hmed := (medium_val h.m3.cls h.m3.phys hk).1
  rw [muV_of_none h.m3.mag] at hmed
  have hε := h.m3.one_le hk
  obtain ⟨A, hA⟩ := ball_ref h.m3.cls h.m3.phys hk h.h1 hmed ea ha
  obtain ⟨B0, hB⟩ := wall_ref h.m3.cls h.m3.phys hk hr2 hmed eb hb
  set ε := P.mat3.epsV k with hεdef
  have hn : (⟨ε, 1⟩ : Medium).n = Real.sqrt ε := by unfold Medium.n; rw [mul_one]
  rw [hn, mul_right_comm] at hA hB
  have hs0 : 0 < k * Real.sqrt ε := mul_pos hk (Real.sqrt_pos.mpr (by linarith))
  have hx0 := mul_pos hs0 h.hL
  refine ⟨A, B0, fun Q i => ?_, fun Q i => ?_, fun Q i => (hA i).1 Q, fun Q i => (hB i).1 Q, fun m hm => ?_⟩
  · rw [hA.val ea.sign]; unfold ampV; rw [mieV_val (ha _ (by omega))]
  · rw [hB.val eb.sign]; unfold ampW; rw [mieIntV_val (hb _ (by omega))]
  · obtain ⟨w, hw, hBk⟩ := C120_positive h hk
    obtain ⟨B, h1, -, h3, -⟩ := hBk m hm
    obtain ⟨c1, q1, g1⟩ := mieTable_ok ha P.lmax
    obtain ⟨c2, q2, g2⟩ := mieTableInt_ok hb P.lssmax
    unfold geoWave at hw
    rw [h.ext] at hw h1
    simp only [Bool.false_eq_true, not_false_eq_true, if_true] at hw
    rw [q1, ok_bind, q2, ok_bind, medium_eps hmed, ok_bind, transRow_int, ok_bind] at hw
    injection hw with hw
    subst hw
    simp only at h1
    rw [show k * P.L * Real.sqrt ε = k * Real.sqrt ε * P.L by ring, blockmatricesAt_congr g1 g2] at h1
    rw [h3, (det_reindex (cavity_gram hx0 hA hB h1)).1]

/-- `P'` is the same arrangement with a larger sphere, a smaller cavity, a sphere closer to the wall, or materials of more contrast. -/
structure CavStronger (P P' : PairIn) : Prop where
  medium : P'.mat3 = P.mat3
  lmax : P'.lmax = P.lmax
  lssmax : P'.lssmax = P.lssmax
  dist : P.L ≤ P'.L
  r1 : P.r1 ≤ P'.r1
  r2 : P'.r2 ≤ P.r2
  c1 : ∀ k, 0 < k → MoreContrast P.mat1 P'.mat1 P.mat3 k
  c2 : ∀ k, 0 < k → WallContrast P.mat2 P'.mat2 P.mat3 k

theorem lnGeo_stronger (h : CavOK P) (h' : CavOK P') (hs : CavStronger P P') {m : ℕ} (hm : m ≤ P.lmax) (hk : 0 < k)
    {σa σb σa' σb' : ℝ} (ea : DenseSign P.mat1 P.mat3 k σa) (eb : DenseSign P.mat2 P.mat3 k σb) (ea' : DenseSign P'.mat1 P'.mat3 k σa')
    (eb' : DenseSign P'.mat2 P'.mat3 k σb') :
    (σa * σb = -1 → σa' * σb' = -1 → P'.L = P.L → lnGeo P m k ≤ lnGeo P' m k) ∧ (σa' * σb' = 1 → |lnGeo P m k| ≤ -lnGeo P' m k) := by
  obtain ⟨A, B, a1, b1, a2, b2, e⟩ := h.kernel hk ea eb
  obtain ⟨A', B', a1', b1', a2', b2', e'⟩ := h'.kernel hk ea' eb'
  have e := e m hm
  have e' := e' m (by rw [hs.lmax]; exact hm)
  rw [hs.medium, hs.lmax, hs.lssmax] at e'
  rw [hs.medium] at a2' b2'
  have cA : ∀ Q i, A Q i ≤ A' Q i := fun Q i => by
    rw [a1, a1', hs.medium]
    exact ampV_stronger h.m1 h'.m1 h.m3 h.h1 hs.r1 i hk (hs.c1 k hk) Q
  have cB : ∀ Q i, B Q i ≤ B' Q i := fun Q i => by
    rw [b1, b1', hs.medium]
    exact ampW_stronger h.m2 h'.m2 h.m3 h'.r2_pos hs.r2 i hk (hs.c2 k hk) Q
  have hab : ∀ {a b : ℝ}, (a = 1 ∨ a = -1) → (b = 1 ∨ b = -1) → a * b = 1 ∨ a * b = -1 := by
    rintro a b (rfl | rfl) (rfl | rfl) <;> norm_num
  have hs0 : 0 < k * Real.sqrt (P.mat3.epsV k) := mul_pos hk (Real.sqrt_pos.mpr (by have := h.m3.one_le hk; linarith))
  refine ⟨fun h1 h2 hL => ?_, fun h2 => ?_⟩
  · rw [e, e', h1, h2, hL]
    refine Real.log_le_log ?_ (kernC_repulsion (fun Q i => (a2 Q i).1) (fun Q i => (b2 Q i).1) cA cB _ _)
    unfold gram
    rw [neg_smul, one_smul, sub_neg_eq_add]
    exact lt_of_lt_of_le one_pos (det_one_add_bounds _).1
  · rw [e, e', h2]
    have hfl : flipOf σa' = flipOf σb' := by
      rcases ea'.sign with q | q <;> rcases eb'.sign with q' | q' <;> rw [q, q'] at h2 ⊢ <;> norm_num at h2
    refine kernC_compare (mul_pos hs0 h'.h1) (y := k * Real.sqrt (P.mat3.epsV k) * (P'.r2 - P'.L)) ?_ (mul_pos hs0 h.hL)
      (mul_le_mul_of_nonneg_left hs.dist hs0.le) (flipOf σb') (fun Q i => (a2 Q i).1) (fun Q i => (b2 Q i).1) cA cB
      (fun Q i => by rw [← hfl]; exact (a2' Q i).2) (fun Q i => by rw [← mul_add, sub_add_cancel]; exact (b2' Q i).2) (hab ea.sign eb.sign) _ _
    exact mul_lt_mul_of_pos_left (by linarith [h'.inside]) hs0

theorem cavSum_stronger (h : CavOK P) (h' : CavOK P') (hs : CavStronger P P') (hk : 0 < k)
    {σa σb σa' σb' : ℝ} (ea : DenseSign P.mat1 P.mat3 k σa) (eb : DenseSign P.mat2 P.mat3 k σb) (ea' : DenseSign P'.mat1 P'.mat3 k σa')
    (eb' : DenseSign P'.mat2 P'.mat3 k σb') :
    (σa * σb = -1 → σa' * σb' = -1 → P'.L = P.L → cavSum P k ≤ cavSum P' k) ∧ (σa' * σb' = 1 → |cavSum P k| ≤ -cavSum P' k) := by
  have key := fun m (hm : m ≤ P.lmax) => lnGeo_stronger h h' hs hm hk ea eb ea' eb'
  unfold cavSum
  rw [hs.lmax]
  refine ⟨fun h1 h2 hL => ?_, fun h2 => ?_⟩
  · have a := (key 0 (by omega)).1 h1 h2 hL
    have b := Finset.sum_le_sum fun m (hm : m ∈ Finset.Icc 1 P.lmax) => (key m (Finset.mem_Icc.mp hm).2).1 h1 h2 hL
    linarith
  · have a := (key 0 (by omega)).2 h2
    have b := Finset.sum_le_sum fun m (hm : m ∈ Finset.Icc 1 P.lmax) => (key m (Finset.mem_Icc.mp hm).2).2 h2
    have c := Finset.abs_sum_le_sum_abs (fun m => lnGeo P m k) (Finset.Icc 1 P.lmax)
    rw [Finset.sum_neg_distrib] at b
    calc _ ≤ |lnGeo P 0 k| + |2 * ∑ m ∈ Finset.Icc 1 P.lmax, lnGeo P m k| := abs_add_le _ _
      _ ≤ _ := by rw [abs_mul, abs_of_pos (two_pos : (0 : ℝ) < 2)]; linarith

end

end CasSph
