import Verif.Lemmas.GeoMean
import Verif.Lemmas.PairGramK0
import Verif.Lemmas.CavityStronger

/-! # Energies at three distances -/

namespace CasSph

open Spec Filter Topology MeasureTheory Set Polynomial Nat

section
variable {t : ℝ}

theorem sign_sq_one {s : ℝ} (h : s = 1 ∨ s = -1) : s * s = 1 := by rcases h with rfl | rfl <;> norm_num

theorem exp_gm (h0 : 0 < t) (h1 : t < 1) (x y : ℝ) : GMRel t (Real.exp x) (Real.exp y) (Real.exp (t * x + (1 - t) * y)) := by
  refine ⟨(Real.exp_pos _).le, (Real.exp_pos _).le, (Real.exp_pos _).le, le_of_eq ?_⟩
  unfold gm
  rw [← Real.exp_mul, ← Real.exp_mul, ← Real.exp_add]
  congr 1
  ring

theorem lap_gm (h0 : 0 < t) (h1 : t < 1) {x y : ℝ} (hx : 0 < x) (hy : 0 < y) {p : ℝ[X]} (h : ∀ u, 1 < u → 0 ≤ p.eval u) :
    GMRel t (lap x p) (lap y p) (lap (t * x + (1 - t) * y) p) := by
  have hR := gmRel_closed h0 h1
  have hz : 0 < t * x + (1 - t) * y := by have := mul_pos h0 hx; have := mul_pos (by linarith : 0 < 1 - t) hy; linarith
  unfold lap
  refine hR.int measurableSet_Ioi (lap_integrable hx p) (lap_integrable hy p) (lap_integrable hz p) fun u hu => hR.mul ?_ (hR.refl (h u hu))
  have := exp_gm h0 h1 (-(x * u)) (-(y * u))
  rwa [show t * -(x * u) + (1 - t) * -(y * u) = -((t * x + (1 - t) * y) * u) by ring] at this

theorem kern_gm (h0 : 0 < t) (h1 : t < 1) {m : ℕ} {x y : ℝ} (hx : 0 < x) (hy : 0 < y) (c0 : ℕ) (A B : Bool → ℕ → ℝ) (i s : ℕ) :
    GMRel t (kern m x c0 A B i s) (kern m y c0 A B i s) (kern m (t * x + (1 - t) * y) c0 A B i s) := by
  have hR := gmRel_closed h0 h1
  unfold kern fab
  refine hR.mul (hR.mul (hR.refl (Real.sqrt_nonneg _)) (hR.mul (hR.refl ?_) (lap_gm h0 h1 hx hy fun u hu => ?_))) (hR.refl (Real.sqrt_nonneg _))
  · exact mul_nonneg (nV_pos (by omega) m).le (nV_pos (by omega) m).le
  · split
    · exact eePol_nonneg _ _ m hu.le
    · exact emPol_nonneg _ _ m hu.le

theorem inv_gm (h0 : 0 < t) (h1 : t < 1) {x y : ℝ} (hx : 0 < x) (hy : 0 < y) : GMRel t x⁻¹ y⁻¹ (t * x + (1 - t) * y)⁻¹ := by
  have hz : 0 < t * x + (1 - t) * y := by have := mul_pos h0 hx; have := mul_pos (by linarith : 0 < 1 - t) hy; linarith
  refine ⟨by positivity, by positivity, by positivity, ?_⟩
  have e : gm t x⁻¹ y⁻¹ = (gm t x y)⁻¹ := by
    unfold gm
    rw [Real.inv_rpow hx.le, Real.inv_rpow hy.le, mul_inv]
  rw [e]
  exact inv_anti₀ (mul_pos (Real.rpow_pos_of_pos hx _) (Real.rpow_pos_of_pos hy _)) (gm_le_am h0.le h1.le hx.le hy.le)

theorem kernS_gm (h0 : 0 < t) (h1 : t < 1) {m l0 : ℕ} {r1 r2 x y : ℝ} (hx : 0 < x) (hy : 0 < y) (A B : ℕ → ℝ) (i s : ℕ) :
    GMRel t (kernS m l0 r1 r2 x A B i s) (kernS m l0 r1 r2 y A B i s) (kernS m l0 r1 r2 (t * x + (1 - t) * y) A B i s) := by
  have hR := gmRel_closed h0 h1
  unfold kernS
  refine hR.mul (hR.mul (hR.refl (Real.sqrt_nonneg _)) ?_) (hR.refl (Real.sqrt_nonneg _))
  simp only [div_eq_mul_inv, ← inv_pow]
  exact hR.mul (hR.refl (Real.exp_pos _).le) (hR.npow (inv_gm h0 h1 hx hy) _)

theorem lnDetV_gm {P : PairIn} (h : PairOK P) (h0 : 0 < t) (h1 : t < 1) {L : ℝ} (hL : P.L ≤ L) {m : ℕ} (hm : max 1 m ≤ P.lmax) {k : ℝ} (hk : 0 < k) {σ : ℝ}
    (ea : DenseSign P.mat1 P.mat3 k σ) (eb : DenseSign P.mat2 P.mat3 k σ) :
    GMRel t (-lnDetV P m k) (-lnDetV (P.at L) m k) (-lnDetV (P.at (t * P.L + (1 - t) * L)) m k) := by
  obtain ⟨A, hA⟩ := amp_exists h.m1 h.m3 hk h.h1 ea
  obtain ⟨B, hB⟩ := amp_exists h.m2 h.m3 hk h.h2 eb
  have hLm : P.L ≤ t * P.L + (1 - t) * L := by nlinarith
  obtain ⟨g1, e1⟩ := lnDetV_kern h hm hk hA hB
  obtain ⟨g2, e2⟩ := lnDetV_kern (h.at hL) hm hk hA hB
  obtain ⟨g3, e3⟩ := lnDetV_kern (h.at hLm) hm hk hA hB
  have hs : σ * σ = 1 := ea.one eb rfl
  rw [e1, e2, e3, hs]
  have hε := zero_lt_one.trans_le (h.m3.one_le hk)
  have hL0 : 0 < P.L := by linarith [h.sep, h.h1, h.h2]
  have hL1 : 0 < L := hL0.trans_le hL
  refine (gmRel_closed h0 h1).det g1 g2 g3 fun i _ s _ => ?_
  simp only [PairIn.at]
  have := kern_gm h0 h1 (m := m) (x := k * P.L * Real.sqrt (P.mat3.epsV k)) (y := k * L * Real.sqrt (P.mat3.epsV k)) (by positivity) (by positivity) (m - 1) A B i s
  rwa [show t * (k * P.L * Real.sqrt (P.mat3.epsV k)) + (1 - t) * (k * L * Real.sqrt (P.mat3.epsV k)) =
    k * (t * P.L + (1 - t) * L) * Real.sqrt (P.mat3.epsV k) by ring] at this

theorem neg_sum_rel {R : ℝ → ℝ → ℝ → Prop} (hR : MeanRel R) {f g h : ℕ → ℝ} {n : ℕ} (hr : ∀ m ≤ n, R (-f m) (-g m) (-h m)) :
    R (-(f 0 + 2 * ∑ m ∈ Finset.Icc 1 n, f m)) (-(g 0 + 2 * ∑ m ∈ Finset.Icc 1 n, g m)) (-(h 0 + 2 * ∑ m ∈ Finset.Icc 1 n, h m)) := by
  have e : ∀ f : ℕ → ℝ, -(f 0 + 2 * ∑ m ∈ Finset.Icc 1 n, f m) = -f 0 + 2 * ∑ m ∈ Finset.Icc 1 n, -f m := fun f => by
    rw [Finset.sum_neg_distrib]; ring
  rw [e, e, e]
  exact hR.add (hr 0 (by omega)) (hR.scale two_pos.le (hR.sum _ fun m hm => hr m (Finset.mem_Icc.mp hm).2))

theorem pairSum_gm {P : PairIn} (h : PairOK P) (h0 : 0 < t) (h1 : t < 1) {L : ℝ} (hL : P.L ≤ L) {k : ℝ} (hk : 0 < k) {σ : ℝ}
    (ea : DenseSign P.mat1 P.mat3 k σ) (eb : DenseSign P.mat2 P.mat3 k σ) :
    GMRel t (-pairSum P k) (-pairSum (P.at L) k) (-pairSum (P.at (t * P.L + (1 - t) * L)) k) := by
  have e : ∀ L, (P.at L).lmax = P.lmax := fun _ => rfl
  unfold pairSum
  simp only [e]
  exact neg_sum_rel (gmRel_closed h0 h1) (f := fun m => lnDetV P m k) (g := fun m => lnDetV (P.at L) m k)
    (h := fun m => lnDetV (P.at (t * P.L + (1 - t) * L)) m k) fun m hm => lnDetV_gm h h0 h1 hL (by have := h.hl; omega) hk ea eb

theorem k0V_gm (h0 : 0 < t) (h1 : t < 1) {m : ℕ} {r1 r2 x y : ℝ} (p1 : 0 < r1) (p2 : 0 < r2) (hx : r1 + r2 < x) (hy : r1 + r2 < y) (lmax lssmax : ℕ)
    {A A' B B' : ℕ → ℝ} (hA : AmpRange A) (hA' : AmpRange A') (hB : AmpRange B) (hB' : AmpRange B') :
    GMRel t (-k0V m r1 r2 x lmax lssmax 1 1 A A' B B') (-k0V m r1 r2 y lmax lssmax 1 1 A A' B B')
      (-k0V m r1 r2 (t * x + (1 - t) * y) lmax lssmax 1 1 A A' B B') := by
  have hR := gmRel_closed h0 h1
  have hz : r1 + r2 < t * x + (1 - t) * y := by nlinarith
  have hlm : 1 ≤ transLmin (m : ℤ) ∧ m ≤ transLmin (m : ℤ) := by unfold transLmin; omega
  have key : ∀ {A B : ℕ → ℝ}, AmpRange A → AmpRange B → GMRel t
      (-Real.log (1 - gram 1 (kernS m (transLmin m) r1 r2 x A B) (lmax + 1 - transLmin m) (lssmax + 1 - transLmin m)).det)
      (-Real.log (1 - gram 1 (kernS m (transLmin m) r1 r2 y A B) (lmax + 1 - transLmin m) (lssmax + 1 - transLmin m)).det)
      (-Real.log (1 - gram 1 (kernS m (transLmin m) r1 r2 (t * x + (1 - t) * y) A B) (lmax + 1 - transLmin m) (lssmax + 1 - transLmin m)).det) := by
    intro A B hA hB
    obtain ⟨_, _, g1⟩ := kernS_hs hlm.1 hlm.2 p1 p2 hx hA hB
    obtain ⟨_, _, g2⟩ := kernS_hs hlm.1 hlm.2 p1 p2 hy hA hB
    obtain ⟨_, _, g3⟩ := kernS_hs hlm.1 hlm.2 p1 p2 hz hA hB
    exact hR.det g1 g2 g3 fun i _ s _ => kernS_gm h0 h1 (by linarith) (by linarith) A B i s
  have := hR.add (key hA' hB') (key hA hB)
  unfold k0V
  simpa only [neg_add] using this

/-! ## A sphere inside a cavity -/

theorem tI_am (h0 : 0 ≤ t) (h1 : t ≤ 1) {m a b : ℕ} (ha : 1 ≤ a) (hma : m ≤ a) (hb : 1 ≤ b) (P Q : Bool) {x y : ℝ} (hx : 0 ≤ x) (hxy : x ≤ y) :
    AMRel t (sgI P a * sgI Q b * tI m x P Q a b) (sgI P a * sgI Q b * tI m y P Q a b) (sgI P a * sgI Q b * tI m (t * x + (1 - t) * y) P Q a b) := by
  have hR := amRel_closed h0 h1
  have base : AMRel t x y (t * x + (1 - t) * y) := ⟨hx, hxy, by nlinarith, le_rfl⟩
  have ser := fun x => ((tI_series m x P Q a b).mul_left (sgI P a * sgI Q b)).tendsto_sum_nat
  refine hR.lim (ser x) (ser y) (ser _) fun N => hR.sum _ fun n _ => ?_
  have e : ∀ x : ℝ, sgI P a * sgI Q b * (x ^ n / n ! * tIn m n P Q a b) = (sgI P a * sgI Q b * tIn m n P Q a b / n !) * x ^ n := fun x => by ring
  rw [e, e, e]
  exact hR.mul (hR.refl (div_nonneg (tIn_sign ha hma n P Q b hb) (by positivity))) (hR.npow base n)

theorem kernC_am (h0 : 0 ≤ t) (h1 : t ≤ 1) {m c0 : ℕ} (hm : m ≤ c0 + 1) {x y : ℝ} (hx : 0 ≤ x) (hxy : x ≤ y) (A B : Bool → ℕ → ℝ) (i s : ℕ) :
    AMRel t (sgC c0 i * kernC m x c0 A B i s * sgC c0 s) (sgC c0 i * kernC m y c0 A B i s * sgC c0 s)
      (sgC c0 i * kernC m (t * x + (1 - t) * y) c0 A B i s * sgC c0 s) := by
  have hR := amRel_closed h0 h1
  have e : ∀ (x : ℝ), sgC c0 i * kernC m x c0 A B i s * sgC c0 s = Real.sqrt (A i.bodd (c0 + i.div2)) *
      (sgI i.bodd (c0 + i.div2 + 1) * sgI s.bodd (c0 + s.div2 + 1) * tI m x i.bodd s.bodd (c0 + i.div2 + 1) (c0 + s.div2 + 1)) *
      Real.sqrt (B s.bodd (c0 + s.div2)) := by
    intro x
    unfold kernC kernOf sgC tIs
    ring
  rw [e, e, e]
  exact hR.mul (hR.mul (hR.refl (Real.sqrt_nonneg _)) (tI_am h0 h1 (by omega) (by omega) (by omega) _ _ hx hxy)) (hR.refl (Real.sqrt_nonneg _))

theorem kernC_det_am (h0 : 0 ≤ t) (h1 : t ≤ 1) {m : ℕ} {ρ r x x' : ℝ} (hρ : 0 < ρ) (hx : 0 < x) (hxx : x ≤ x') (hr : ρ + x' < r) (fl : Bool)
    {A B : Bool → ℕ → ℝ} (hA : ∀ P c, 0 ≤ A P c ∧ A P c ≤ pecR (xor fl P) c ρ) (hB : ∀ P c, 0 ≤ B P c ∧ B P c ≤ cavR (xor fl P) c r) (n p : ℕ) :
    AMRel t (-Real.log (1 - gram 1 (kernC m x (m - 1) A B) n p).det) (-Real.log (1 - gram 1 (kernC m x' (m - 1) A B) n p).det)
      (-Real.log (1 - gram 1 (kernC m (t * x + (1 - t) * x') (m - 1) A B) n p).det) := by
  have hmc : m ≤ (m - 1) + 1 := by omega
  have hc : m - 1 = 0 ∨ m - 1 + 1 = m := by omega
  have hs2 : ∀ i, sgC (m - 1) i * sgC (m - 1) i = 1 := fun i => sgI_sq _ _
  have hz : x ≤ t * x + (1 - t) * x' ∧ t * x + (1 - t) * x' ≤ x' := ⟨by nlinarith, by nlinarith⟩
  have g : ∀ z, 0 < z → z ≤ x' → _ := fun z hz hzx => (kernC_contr (m := m) hmc hc hρ (y := r - z) (by linarith) hz fl (fun P c => (hA P c).1)
    (fun P c => (hA P c).2) (fun P c => (hB P c).1) (fun P c => by rw [sub_add_cancel]; exact (hB P c).2)).signs hs2 hs2
  have key := (amRel_closed h0 h1).det (g x hx hxx) (g x' (hx.trans_le hxx) le_rfl) (g _ (hx.trans_le hz.1) hz.2) (n := n) (p := p)
    fun i _ s _ => kernC_am h0 h1 hmc hx.le hxx A B i s
  rwa [gram_signs (H := kernC m x (m - 1) A B) hs2 hs2, gram_signs (H := kernC m x' (m - 1) A B) hs2 hs2,
    gram_signs (H := kernC m (t * x + (1 - t) * x') (m - 1) A B) hs2 hs2] at key

/-- The same arrangement with another distance of the centres. -/
theorem CavOK.at {P : PairIn} (h : CavOK P) {L : ℝ} (hL : 0 < L) (hs : L + P.r1 < P.r2) : CavOK (P.at L) :=
  ⟨h.m1, h.m2, h.m3, h.h1, hL, hs, h.hl, h.hls⟩

theorem lnGeo_am {P : PairIn} (h : CavOK P) (h0 : 0 ≤ t) (h1 : t ≤ 1) {L : ℝ} (hL : P.L ≤ L) (hLs : L + P.r1 < P.r2) {m : ℕ} (hm : m ≤ P.lmax) {k : ℝ} (hk : 0 < k)
    {σ : ℝ} (ea : DenseSign P.mat1 P.mat3 k σ) (eb : DenseSign P.mat2 P.mat3 k σ) :
    AMRel t (-lnGeo P m k) (-lnGeo (P.at L) m k) (-lnGeo (P.at (t * P.L + (1 - t) * L)) m k) := by
  have hz : P.L ≤ t * P.L + (1 - t) * L ∧ t * P.L + (1 - t) * L ≤ L := ⟨by nlinarith, by nlinarith⟩
  obtain ⟨A, B, a1, b1, a2, b2, e⟩ := h.kernel hk ea eb
  have g : ∀ L', 0 < L' → L' + P.r1 < P.r2 → lnGeo (P.at L') m k = Real.log (1 - gram 1 (kernC m (k * Real.sqrt (P.mat3.epsV k) * L') (m - 1) A B)
        (2 * (P.lmax + 1 - transLmin m)) (2 * (P.lssmax + 1 - transLmin m))).det := fun L' p1 p2 => by
    obtain ⟨A', B', a1', b1', a2', b2', e'⟩ := (h.at p1 p2).kernel hk ea eb
    have eA : A' = A := by funext Q i; rw [a1, a1']; rfl
    have eB : B' = B := by funext Q i; rw [b1, b1']; rfl
    have := e' m hm
    rw [eA, eB, (sign_sq_one ea.sign)] at this
    exact this
  have hs0 : 0 < k * Real.sqrt (P.mat3.epsV k) := mul_pos hk (Real.sqrt_pos.mpr (by have := h.m3.one_le hk; linarith))
  rw [e m hm, sign_sq_one ea.sign, g L (h.hL.trans_le hL) hLs, g _ (h.hL.trans_le hz.1) (by linarith),
    show k * Real.sqrt (P.mat3.epsV k) * (t * P.L + (1 - t) * L) = t * (k * Real.sqrt (P.mat3.epsV k) * P.L) + (1 - t) * (k * Real.sqrt (P.mat3.epsV k) * L) by ring]
  refine kernC_det_am h0 h1 (mul_pos hs0 h.h1) (mul_pos hs0 h.hL) (mul_le_mul_of_nonneg_left hL hs0.le) (r := k * Real.sqrt (P.mat3.epsV k) * P.r2) ?_
    (flipOf σ) a2 b2 _ _
  rw [← mul_add]
  exact mul_lt_mul_of_pos_left (by linarith) hs0

theorem cavSum_am {P : PairIn} (h : CavOK P) (h0 : 0 ≤ t) (h1 : t ≤ 1) {L : ℝ} (hL : P.L ≤ L) (hLs : L + P.r1 < P.r2) {k : ℝ} (hk : 0 < k)
    {σ : ℝ} (ea : DenseSign P.mat1 P.mat3 k σ) (eb : DenseSign P.mat2 P.mat3 k σ) :
    AMRel t (-cavSum P k) (-cavSum (P.at L) k) (-cavSum (P.at (t * P.L + (1 - t) * L)) k) := by
  have e : ∀ L, (P.at L).lmax = P.lmax := fun _ => rfl
  unfold cavSum
  simp only [e]
  exact neg_sum_rel (amRel_closed h0 h1) (f := fun m => lnGeo P m k) (g := fun m => lnGeo (P.at L) m k)
    (h := fun m => lnGeo (P.at (t * P.L + (1 - t) * L)) m k) fun m hm => lnGeo_am h h0 h1 hL hLs hm hk ea eb

end

end CasSph
