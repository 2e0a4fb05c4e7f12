import Verif.Lemmas.PairGram

/-! # The zero-frequency determinants of a pair of spheres in terms of arrays of non-negative numbers -/

namespace CasSph

open Spec Filter Topology Matrix

/-- static translation coefficients weighted with the amplitudes `A`, `B` of the spheres -/
noncomputable def kernS (m l0 : ℕ) (r1 r2 L : ℝ) (A B : ℕ → ℝ) (i s : ℕ) : ℝ :=
  Real.sqrt (A (l0 + i) * r1 ^ (2 * (l0 + i) + 1)) * (Real.exp (transK0Ext m (l0 + i) (l0 + s)).2 / L ^ (l0 + i + (l0 + s) + 1)) *
    Real.sqrt (B (l0 + s) * r2 ^ (2 * (l0 + s) + 1))

theorem transK0Ext_comm (m : ℤ) (a b : ℕ) : transK0Ext m a b = transK0Ext m b a := by
  unfold transK0Ext
  simp only [Prod.mk.injEq, true_and]
  rw [show (2 * (b : ℝ) + 2 * a + 1) = 2 * a + 2 * b + 1 by ring, show ((b : ℝ) + a) = a + b by ring]
  ring

theorem kernS_swap (m l0 : ℕ) (r1 r2 L : ℝ) (A B : ℕ → ℝ) (i s : ℕ) : kernS m l0 r1 r2 L A B i s = kernS m l0 r2 r1 L B A s i := by
  unfold kernS
  rw [transK0Ext_comm, show l0 + s + (l0 + i) + 1 = l0 + i + (l0 + s) + 1 by ring]
  ring

theorem kernS_nonneg (m l0 : ℕ) {r1 r2 L : ℝ} (hL : 0 < L) (A B : ℕ → ℝ) (i s : ℕ) : 0 ≤ kernS m l0 r1 r2 L A B i s := by
  unfold kernS; positivity

/-- Amplitudes of multipoles `l ≥ 1`, not larger than those of a perfect conductor. -/
def AmpRange (A : ℕ → ℝ) : Prop := ∀ l, 1 ≤ l → 0 ≤ A l ∧ A l ≤ kappaL l

theorem kernS_bound {m l0 : ℕ} (hl0 : 1 ≤ l0) (hml : m ≤ l0) {r1 r2 L : ℝ} (h1 : 0 < r1) (h2 : 0 < r2) (hL : 0 < L) {A B : ℕ → ℝ} (hA : AmpRange A)
    (hB : AmpRange B) (i s : ℕ) : |kernS m l0 r1 r2 L A B i s| ≤ binomArr (r1 / L) (r2 / L) (l0 + i) (l0 + s) := by
  obtain ⟨a0, a1⟩ := hA (l0 + i) (by omega)
  obtain ⟨b0, b1⟩ := hB (l0 + s) (by omega)
  unfold kernS
  refine static_entry_bound (m := m) (by omega) (by omega) (by omega) (by omega) h1 h2 hL (by positivity) (by positivity)
    (mul_le_mul_of_nonneg_right a1 (by positivity)) (mul_le_mul_of_nonneg_right b1 (by positivity)) ?_
  rw [abs_of_pos (Real.exp_pos _)]

theorem kernS_hs {m l0 : ℕ} (hl0 : 1 ≤ l0) (hml : m ≤ l0) {r1 r2 L : ℝ} (h1 : 0 < r1) (h2 : 0 < r2) (hs : r1 + r2 < L) {A B : ℕ → ℝ} (hA : AmpRange A)
    (hB : AmpRange B) : ∃ θ T, HSContr (kernS m l0 r1 r2 L A B) θ T := by
  have hL : 0 < L := by linarith
  have hx : 0 < r1 / L := by positivity
  have hy : 0 < r2 / L := by positivity
  have hxy : r1 / L + r2 / L < 1 := by rw [← add_div, div_lt_one hL]; exact hs
  have hH := kernS_bound hl0 hml h1 h2 hL hA hB
  obtain ⟨t0, t1, -⟩ := thetaXY_lt hx hy hxy
  exact ⟨_, _, t0, t1, contr_of_binom hx hy hxy hH, binom_square_sum hx hy hxy hH⟩

/-- `A` are the electric and `A'` the magnetic amplitudes of the static Mie coefficients of a sphere of the material `m` and the radius `r`. -/
def AmpK0 (frac : ℝ → ℝ → ℝ) (m md : Material) (r σ τ : ℝ) (A A' : ℕ → ℝ) : Prop :=
  AmpRange A ∧ AmpRange A' ∧ ∃ c : MieCoef, (∀ l, 1 ≤ l → mieK0 frac m md l r = .ok ⟨c.TE l, c.TM l, c.ln l⟩) ∧
    ∀ l, 1 ≤ l → c.TM l * Real.exp (c.ln l) = -σ * (-1) ^ l * A l ∧ c.TE l * Real.exp (c.ln l) = -τ * (-1) ^ l * A' l

theorem AmpK0.coef {frac : ℝ → ℝ → ℝ} {m md : Material} {r σ τ : ℝ} {A A' : ℕ → ℝ} (h : AmpK0 frac m md r σ τ A A') {c : MieCoef}
    (hc : ∀ l, 1 ≤ l → mieK0 frac m md l r = .ok ⟨c.TE l, c.TM l, c.ln l⟩) {l : ℕ} (hl : 1 ≤ l) :
    c.TM l * Real.exp (c.ln l) = -σ * (-1) ^ l * A l ∧ c.TE l * Real.exp (c.ln l) = -τ * (-1) ^ l * A' l := by
  obtain ⟨-, -, c', h1, h2⟩ := h
  have e := h1 l hl
  rw [hc l hl] at e
  injection e with e
  injection e with e1 e2 e3
  rw [e1, e2, e3]
  exact h2 l hl

theorem ampK0_exists (frac : ℝ → ℝ → ℝ) {m md : Material} (h : SphereMat m) (hd : MediumMat md) {r σ τ : ℝ} (hr : 0 < r) (hσ : ElectricSign m md σ)
    (hτ : MagneticSign m md τ) : ∃ A A', AmpK0 frac m md r σ τ A A' := by
  obtain ⟨a, b, S⟩ := staticPair_exists frac h.static h.static hd.diel hd.phys hr hr (L := 2 * r + 1) (by linarith)
  have key := fun l (hl : 1 ≤ l) => mieK0_static h.static hd.diel hd.phys hl (S.ha l hl)
  choose! A a1 a2 a3 using fun l (hl : 1 ≤ l) => (key l hl).1 σ hσ
  choose! A' b1 b2 b3 using fun l (hl : 1 ≤ l) => (key l hl).2 τ hτ
  exact ⟨A, A', fun l hl => ⟨a1 l hl, a2 l hl⟩, fun l hl => ⟨b1 l hl, b2 l hl⟩, a, S.ha, fun l hl => ⟨a3 l hl, b3 l hl⟩⟩

theorem static_core_kern {r1 r2 L : ℝ} (h1 : 0 < r1) (h2 : 0 < r2) {m l0 : ℕ} (hl0 : 1 ≤ l0) {σa σb : ℝ} {a b A B : ℕ → ℝ} (rA : AmpRange A)
    (rB : AmpRange B) (ha : ∀ l, 1 ≤ l → a l = -σa * (-1) ^ l * A l) (hb : ∀ l, 1 ≤ l → b l = -σb * (-1) ^ l * B l) (n p : ℕ) :
    (1 - staticRoundTrip (n := n) (p := p) (l0) r1 r2 L (fun i => a (l0 + i.1)) (fun s => b (l0 + s.1))
        (of fun i s => (transK0Ext m (l0 + i.1) (l0 + s.1)).1 * Real.exp (transK0Ext m (l0 + i.1) (l0 + s.1)).2)).det =
      (1 - gram (σa * σb) (kernS m l0 r1 r2 L A B) n p).det := by
  have hA := fun i => rA (l0 + i) (by omega)
  have hB := fun i => rB (l0 + i) (by omega)
  have e := static_det l0 (r1 := r1) (r2 := r2) (L := L) (σa := -σa) (σb := -σb) (a := fun i : Fin n => a (l0 + i.1)) (b := fun s : Fin p => b (l0 + s.1))
    (of fun i s => (transK0Ext m (l0 + i.1) (l0 + s.1)).1 * Real.exp (transK0Ext m (l0 + i.1) (l0 + s.1)).2)
    (A := fun i => A (l0 + i.1) * r1 ^ (2 * (l0 + i.1) + 1)) (B := fun s => B (l0 + s.1) * r2 ^ (2 * (l0 + s.1) + 1))
    (K := ((-1 : ℝ) ^ m) • corner (kernS m l0 r1 r2 L A B) n p)
    (fun i => by have := (hA i.1).1; positivity) (fun s => by have := (hB s.1).1; positivity)
    (fun i => by rw [ha _ (by omega)]; ring) (fun s => by rw [hb _ (by omega)]; ring) (fun i s => by
      simp only [Matrix.smul_apply, corner, kernS, of_apply, smul_eq_mul]
      unfold transK0Ext
      simp only [zpow_natCast]
      ring)
  rw [e, neg_mul_neg, Matrix.transpose_smul, Matrix.smul_mul, Matrix.mul_smul, smul_smul, smul_smul, mul_assoc (σa * σb), ← mul_pow, neg_one_mul, neg_neg, one_pow, mul_one]
  rfl

theorem StaticPair.kern {frac : ℝ → ℝ → ℝ} {mA mB md : Material} {r1 r2 L : ℝ} {a0 b0 : MieCoef}
    (S : StaticPair frac mA mB md r1 r2 L a0 b0) {m : ℕ} {σa σb τa τb : ℝ} {A A' B B' : ℕ → ℝ} (hA : AmpK0 frac mA md r1 σa τa A A')
    (hB : AmpK0 frac mB md r2 σb τb B B') {lmax lssmax : ℕ} {TE TM} (h0 : blockmatricesK0At lmax lssmax m r1 r2 L a0 b0 = .ok (TE, TM)) :
    (1 - TM).det = (1 - gram (σa * σb) (kernS m (transLmin m) r1 r2 L A B) (lmax + 1 - transLmin m) (lssmax + 1 - transLmin m)).det ∧
    (1 - TE).det = (1 - gram (τa * τb) (kernS m (transLmin m) r1 r2 L A' B') (lmax + 1 - transLmin m) (lssmax + 1 - transLmin m)).det := by
  have hL : 0 < L := by have := S.h1; have := S.h2; have := S.sep; linarith
  have hlm : 1 ≤ transLmin (m : ℤ) := by unfold transLmin; omega
  obtain ⟨c1, c2⟩ := C72_k0_ext_operator S.h1 S.h2 hL h0
  rw [c1.det, c2.det]
  exact ⟨static_core_kern S.h1 S.h2 hlm hA.1 hB.1 (a := fun l => a0.TM l * Real.exp (a0.ln l)) (b := fun l => b0.TM l * Real.exp (b0.ln l))
      (fun l hl => (hA.coef S.ha hl).1) (fun l hl => (hB.coef S.hb hl).1) _ _,
    static_core_kern S.h1 S.h2 hlm hA.2.1 hB.2.1 (a := fun l => a0.TE l * Real.exp (a0.ln l)) (b := fun l => b0.TE l * Real.exp (b0.ln l))
      (fun l hl => (hA.coef S.ha hl).2) (fun l hl => (hB.coef S.hb hl).2) _ _⟩

/-- Contribution of one `m` at zero frequency from the amplitudes of the spheres. -/
noncomputable def k0V (m : ℕ) (r1 r2 L : ℝ) (lmax lssmax : ℕ) (s t : ℝ) (A A' B B' : ℕ → ℝ) : ℝ :=
  Real.log (1 - gram t (kernS m (transLmin m) r1 r2 L A' B') (lmax + 1 - transLmin m) (lssmax + 1 - transLmin m)).det +
  Real.log (1 - gram s (kernS m (transLmin m) r1 r2 L A B) (lmax + 1 - transLmin m) (lssmax + 1 - transLmin m)).det

/-- `mSumme_k0` from the amplitudes of the spheres. -/
theorem pairK0_kern {P : PairIn} (h : PairOK P) {frac : ℝ → ℝ → ℝ} {σa σb τa τb : ℝ} {A A' B B' : ℕ → ℝ}
    (hA : AmpK0 frac P.mat1 P.mat3 P.r1 σa τa A A') (hB : AmpK0 frac P.mat2 P.mat3 P.r2 σb τb B B') :
    pairK0 frac P = (mSummeK0 P.lmax P.precision fun m => .ok fun _ => k0V m P.r1 P.r2 P.L P.lmax P.lssmax (σa * σb) (τa * τb) A A' B B') >>=
      fun r => .ok (r 0) := by
  obtain ⟨a0, b0, S⟩ := staticPair_exists frac h.m1.static h.m2.static h.m3.diel h.m3.phys h.h1 h.h2 h.sep
  obtain ⟨c1, h1, g1⟩ := mieTableK0_ok S.ha P.lmax
  obtain ⟨c2, h2, g2⟩ := mieTableK0_ok S.hb P.lssmax
  have hv : ∀ m : ℕ, m ≤ P.lmax → ∃ N, ∀ fuel, N < fuel → singleMK0 fuel P.lmax P.lssmax m P.r1 P.r2 P.L c1 c2 =
      some (.ok (some (k0V m P.r1 P.r2 P.L P.lmax P.lssmax (σa * σb) (τa * τb) A A' B B' : EReal))) := by
    intro m hm
    have hlm : transLmin (m : ℤ) = max 1 m := by unfold transLmin; omega
    have := h.hl
    have := h.hls
    obtain ⟨⟨TE, TM⟩, h0⟩ : ∃ R, blockmatricesK0At P.lmax P.lssmax m P.r1 P.r2 P.L a0 b0 = .ok R :=
      C72_k0_ext_total (by omega) (by omega) _ _ _ _
    obtain ⟨⟨p1, -⟩, ⟨p2, -⟩⟩ := C92_positive S h0
    obtain ⟨N, hN⟩ := slnDetBlockdiagonal_pos TE TM p1 p2
    refine ⟨N, fun fuel hf => ?_⟩
    rw [singleMK0_congr g1 g2]
    unfold singleMK0
    rw [h0]
    obtain ⟨e1, e2⟩ := S.kern hA hB h0
    have e : k0V m P.r1 P.r2 P.L P.lmax P.lssmax (σa * σb) (τa * τb) A A' B B' = staticLn TE TM := by
      unfold k0V staticLn
      rw [abs_of_pos p1, abs_of_pos p2, e1, e2]
    rw [e]
    exact hN fuel hf
  have hex : ∃ v : ℕ → ℝ, ∀ m : ℕ, m ≤ P.lmax → ∃ N, ∀ fuel, N < fuel →
      singleMK0 fuel P.lmax P.lssmax m P.r1 P.r2 P.L c1 c2 = some (.ok (some (v m : EReal))) := ⟨_, hv⟩
  have hv' : ∀ m ≤ P.lmax, hex.choose m = k0V m P.r1 P.r2 P.L P.lmax P.lssmax (σa * σb) (τa * τb) A A' B B' := by
    intro m hm
    obtain ⟨N1, q1⟩ := hex.choose_spec m hm
    obtain ⟨N2, q2⟩ := hv m hm
    have a1 := q1 (max N1 N2 + 1) (by omega)
    have a2 := q2 (max N1 N2 + 1) (by omega)
    rw [a2] at a1
    injection a1 with a1
    injection a1 with a1
    injection a1 with a1
    exact (EReal.coe_injective a1).symm
  unfold pairK0
  rw [h1, ok_bind, h2, ok_bind]
  rw [dif_pos hex, mSummeK0_congr (fun m hm => by rw [hv' m hm])]

theorem k0V_swap (m : ℕ) (r1 r2 L : ℝ) (lmax lssmax : ℕ) (s t : ℝ) (A A' B B' : ℕ → ℝ) :
    k0V m r2 r1 L lssmax lmax s t B B' A A' = k0V m r1 r2 L lmax lssmax s t A A' B B' := by
  unfold k0V
  rw [gram_swap_det (H := kernS _ _ r2 r1 _ _ _), gram_swap_det (H := kernS m _ r2 r1 _ B A)]
  simp only [← kernS_swap m (transLmin m) r1 r2]

/-- Without early termination the sum over `m` is complete. -/
theorem mSummeK0_full {lmax : ℕ} {precision : ℝ} (hp : precision ≤ 0) (v : ℕ → ℝ) :
    mSummeK0 lmax precision (fun m => .ok fun _ => v m) = .ok fun _ => v 0 + 2 * ∑ m ∈ Finset.Icc 1 lmax, v m := by
  obtain ⟨M, h1, -, h2, -⟩ := C14_mSumme_k0 (lmax := lmax) (precision := precision) (L := fun m => .ok fun _ => v m) (v := fun m _ => v m) fun _ _ => rfl
  have hM : M = lmax := by
    rcases h2 with ⟨-, -, h⟩ | h
    · have := abs_nonneg (|mSum (fun m (_ : Fin 1) => v m) (M - 1) 0 / mSum (fun m (_ : Fin 1) => v m) M 0| - 1)
      linarith
    · exact h
  rw [h1, hM]
  rfl

theorem kernS_far {m l0 : ℕ} (hl0 : 1 ≤ l0) {r1 r2 L L' : ℝ} (hL : 0 < L) (hLL : L ≤ L') (A B : ℕ → ℝ) (i s : ℕ) :
    kernS m l0 r1 r2 L' A B i s ≤ (L / L') ^ 3 * kernS m l0 r1 r2 L A B i s := by
  have hL' : 0 < L' := hL.trans_le hLL
  have e : kernS m l0 r1 r2 L' A B i s = (L / L') ^ (l0 + i + (l0 + s) + 1) * kernS m l0 r1 r2 L A B i s := by
    unfold kernS
    rw [div_pow]
    field_simp
  rw [e]
  refine mul_le_mul_of_nonneg_right (pow_le_pow_of_le_one (by positivity) ((div_le_one hL').mpr hLL) (by omega)) (kernS_nonneg _ _ hL _ _ _ _)

theorem k0V_far {m : ℕ} {r1 r2 L L' : ℝ} (h1 : 0 < r1) (h2 : 0 < r2) (hs : r1 + r2 < L) (hLL : L ≤ L') (lmax lssmax : ℕ) {A A' B B' : ℕ → ℝ}
    (hA : AmpRange A) (hA' : AmpRange A') (hB : AmpRange B) (hB' : AmpRange B') :
    k0V m r1 r2 L lmax lssmax 1 1 A A' B B' ≤ 0 ∧
    -k0V m r1 r2 L' lmax lssmax 1 1 A A' B B' ≤ (L / L') ^ 6 * -k0V m r1 r2 L lmax lssmax 1 1 A A' B B' := by
  have hL : 0 < L := by linarith
  have hL' : 0 < L' := hL.trans_le hLL
  have hlm : 1 ≤ transLmin (m : ℤ) ∧ m ≤ transLmin (m : ℤ) := by unfold transLmin; omega
  have key : ∀ {A B : ℕ → ℝ}, AmpRange A → AmpRange B →
      Real.log (1 - gram 1 (kernS m (transLmin m) r1 r2 L A B) (lmax + 1 - transLmin m) (lssmax + 1 - transLmin m)).det ≤ 0 ∧
      -Real.log (1 - gram 1 (kernS m (transLmin m) r1 r2 L' A B) (lmax + 1 - transLmin m) (lssmax + 1 - transLmin m)).det ≤
        (L / L') ^ 6 * -Real.log (1 - gram 1 (kernS m (transLmin m) r1 r2 L A B) (lmax + 1 - transLmin m) (lssmax + 1 - transLmin m)).det := by
    intro A B hA hB
    obtain ⟨θ, T, g⟩ := kernS_hs hlm.1 hlm.2 h1 h2 hs hA hB
    obtain ⟨θ', T', g'⟩ := kernS_hs hlm.1 hlm.2 h1 h2 (hs.trans_le hLL) hA hB
    refine ⟨(g.sign _ _).1, ?_⟩
    have := g.compare g' (c := (L / L') ^ 3) (by positivity) (pow_le_one₀ (by positivity) ((div_le_one hL').mpr hLL)) (n := lmax + 1 - transLmin m)
      (p := lssmax + 1 - transLmin m) (fun i _ s _ => kernS_nonneg _ _ hL' _ _ _ _) (fun i _ s _ => kernS_nonneg _ _ hL _ _ _ _)
      (fun i _ s _ => kernS_far hlm.1 hL hLL _ _ _ _)
    rwa [← pow_mul] at this
  obtain ⟨p1, p2⟩ := key hA hB
  obtain ⟨q1, q2⟩ := key hA' hB'
  unfold k0V
  constructor <;> linarith

end CasSph
