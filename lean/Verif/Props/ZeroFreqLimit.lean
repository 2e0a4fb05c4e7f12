import Verif.Lemmas.ZeroFreq
import Verif.Props.ScatLimits

/-! # C91: the zero-frequency determinant is the limit of the finite-frequency ones (two separate spheres) -/

namespace CasSph

open Spec Filter Topology Nat Matrix

/-- The coefficients of one sphere divided by `(√(ε μ) k)^(2l+1)` converge to the static ones times `R^(2l+1)`. -/
theorem mieLimit_rescaled {T : BesTable} {m1 m2 : Material} {l : ℕ} {R e0 mu0 : ℝ} {c : Mie} (hR : 0 < R)
    (h : MieLimit T m1 m2 l R c) (he : m2.epsilon 0 = .ok e0) (hmu : m2.mu 0 = .ok mu0) {a : ℝ → Mie}
    (ha : ∀ k, 0 < k → mie T T m1 m2 l k R = .ok (a k)) :
    Tendsto (fun k => (a k).TE * Real.exp (a k).ln / (Real.sqrt (e0 * mu0) * k) ^ (2 * l + 1)) (𝓝[>] 0)
      (𝓝 (c.TE * Real.exp c.ln * R ^ (2 * l + 1))) ∧
    Tendsto (fun k => (a k).TM * Real.exp (a k).ln / (Real.sqrt (e0 * mu0) * k) ^ (2 * l + 1)) (𝓝[>] 0)
      (𝓝 (c.TM * Real.exp c.ln * R ^ (2 * l + 1))) := by
  obtain ⟨e0', mu0', v, he', hmu', hpos, hv, h1, h2⟩ := h
  rw [he] at he'; cases he'
  rw [hmu] at hmu'; cases hmu'
  have hRl := pow_pos hR (2 * l + 1)
  have key : ∀ {f : ℝ → Mie → ℝ} {z : ℝ}, Tendsto (fun k => f k (v k) / (Real.sqrt (e0 * mu0) * R * k) ^ (2 * l + 1)) (𝓝[>] 0) (𝓝 z) →
      Tendsto (fun k => f k (a k) / (Real.sqrt (e0 * mu0) * k) ^ (2 * l + 1)) (𝓝[>] 0) (𝓝 (z * R ^ (2 * l + 1))) := by
    intro f z h
    refine (h.mul_const (R ^ (2 * l + 1))).congr' ?_
    filter_upwards [self_mem_nhdsWithin] with k hk
    have hk : 0 < k := hk
    have e := hv k hk
    rw [ha k hk] at e
    injection e with e
    rw [e]
    have hn := Real.sqrt_pos.mpr hpos
    rw [mul_right_comm, mul_pow _ R]
    have := pow_pos (mul_pos hn hk) (2 * l + 1)
    field_simp
  exact ⟨key (f := fun _ x => x.TE * Real.exp x.ln) h1, key (f := fun _ x => x.TM * Real.exp x.ln) h2⟩

/-- The inputs and outputs of the evaluation at positive wavenumbers: Mie coefficients of both spheres, Bessel functions of the
translation and the blocks of the round-trip matrix. -/
structure FiniteK (T : BesTable) (mA mB md : Material) (r1 r2 L : ℝ) (lmax lssmax : ℕ) (m : ℤ) (a b : ℝ → MieCoef)
    (bes : ℝ → List ℝ) (B : ℝ → Blocks (lmax + 1 - transLmin m)) : Prop where
  sphereA : ∀ k, 0 < k → ∀ l, 1 ≤ l → mie T T mA md l k r1 = .ok ⟨(a k).TE l, (a k).TM l, (a k).ln l⟩
  sphereB : ∀ k, 0 < k → ∀ l, 1 ≤ l → mie T T mB md l k r2 = .ok ⟨(b k).TE l, (b k).TM l, (b k).ln l⟩
  blocks : ∀ k, 0 < k → ∃ e, md.epsilon k = .ok e ∧
    transBessels [k * L * Real.sqrt e] (.int (lmax + lssmax + 1 : ℕ)) 1 = .ok [bes k] ∧
    blockmatricesAt lmax lssmax m true (k * L * Real.sqrt e) (bes k) (a k) (b k) = .ok (B k)

/-- The general statement: the limit is the static determinant for the distance `L / √μ`. -/
theorem zeroFreq_limit {T : BesTable} {mA mB md : Material} {r1 r2 L mu0 : ℝ} {lmax lssmax m : ℕ} {a b : ℝ → MieCoef}
    {a0 b0 : MieCoef} {bes : ℝ → List ℝ} {B : ℝ → Blocks (lmax + 1 - transLmin m)}
    {TE TM : Matrix (Fin (lmax + 1 - transLmin m)) (Fin (lmax + 1 - transLmin m)) ℝ}
    (h1 : 0 < r1) (h2 : 0 < r2) (hL : 0 < L) (hd : md.Dielectric) (hp : md.Physical) (hmu : md.mu 0 = .ok mu0)
    (hA : ∀ l, 1 ≤ l → MieLimit T mA md l r1 ⟨a0.TE l, a0.TM l, a0.ln l⟩)
    (hB : ∀ l, 1 ≤ l → MieLimit T mB md l r2 ⟨b0.TE l, b0.TM l, b0.ln l⟩)
    (hk : FiniteK T mA mB md r1 r2 L lmax lssmax m a b bes B)
    (h0 : blockmatricesK0At lmax lssmax m r1 r2 (L / Real.sqrt mu0) a0 b0 = .ok (TE, TM)) :
    Tendsto (fun k => (1 - fromBlocks (B k).EE (B k).EM (B k).ME (B k).MM).det) (𝓝[>] 0)
      (𝓝 ((1 - TE).det * (1 - TM).det)) := by
  have hmd : md.cls ≠ .pec := by rw [hd.1]; simp
  obtain ⟨e0, he, he0, hlim⟩ := dielectric_static hd hp
  have hmu0 : 0 < mu0 := by
    have := mu_val hp (le_refl (0 : ℝ))
    rw [hmu] at this; cases this
    exact muV_pos hp le_rfl
  have hsm := Real.sqrt_pos.mpr hmu0
  set n0 := Real.sqrt (e0 * mu0) with hn0
  have hn0p : 0 < n0 := Real.sqrt_pos.mpr (mul_pos he0 hmu0)
  have hlm : transLmin (m : ℤ) = max 1 m := by unfold transLmin; omega
  set l0 := transLmin (m : ℤ) with hl0
  -- the argument of the Bessel functions
  set x : ℝ → ℝ := fun k => k * L * Real.sqrt (md.epsV k) with hx
  have heps : ∀ k, 0 < k → md.epsilon k = .ok (md.epsV k) ∧ 0 < md.epsV k := by
    intro k hk
    obtain ⟨h, hpos⟩ := medium_val hmd hp hk
    refine ⟨?_, hpos⟩
    unfold Material.medium at h
    cases hq : md.epsilon k with
    | error er => rw [hq] at h; cases h
    | ok e =>
      unfold Material.epsV
      rw [hq]
  have hxpos : ∀ k, 0 < k → 0 < x k := fun k hk => mul_pos (mul_pos hk hL) (Real.sqrt_pos.mpr (heps k hk).2)
  have hs0 : Tendsto (fun k => Real.sqrt (md.epsV k)) (𝓝[>] 0) (𝓝 (Real.sqrt e0)) := (Real.continuous_sqrt.tendsto _).comp hlim
  have hx0 : Tendsto x (𝓝[>] 0) (𝓝[>] 0) := by
    refine tendsto_nhdsWithin_iff.mpr ⟨?_, ?_⟩
    · have : Tendsto (fun k : ℝ => k * L) (𝓝[>] 0) (𝓝 (0 * L)) :=
        (tendsto_id.mono_left nhdsWithin_le_nhds).mul_const L
      have := this.mul hs0
      rwa [zero_mul, zero_mul] at this
    · filter_upwards [self_mem_nhdsWithin] with k hk using hxpos k hk
  have htx : Tendsto (fun k => n0 * k / x k) (𝓝[>] 0) (𝓝 (1 / (L / Real.sqrt mu0))) := by
    have h := (tendsto_const_nhds (x := n0 / L)).div hs0 (Real.sqrt_pos.mpr he0).ne'
    have e : n0 / L / Real.sqrt e0 = 1 / (L / Real.sqrt mu0) := by
      rw [hn0, Real.sqrt_mul he0.le]
      have := Real.sqrt_pos.mpr he0
      field_simp
    rw [e] at h
    refine h.congr' ?_
    filter_upwards [self_mem_nhdsWithin] with k hk
    have hk : 0 < k := hk
    have := Real.sqrt_pos.mpr (heps k hk).2
    simp only [hx, Pi.div_apply]
    field_simp
  -- the translation coefficients as functions of their argument
  set row : ℝ → List ℝ := fun y => (List.range (lmax + lssmax + 1 + 1)).map (lnk1 y) with hrow
  have hrowlen : ∀ y, (row y).length = lmax + lssmax + 2 := by intro y; simp [hrow]
  have hrowb : ∀ y, 0 < y → transBessels [y] (.int (lmax + lssmax + 1 : ℕ)) 1 = .ok [row y] := fun y _ => trans_row_ext y _
  set V : ℝ → ℕ → ℕ → VCoef := fun y l1 l2 => vVal true m y (row y) l1 l2 with hV
  have hVok : ∀ y {l1 l2 : ℕ}, l1 ≤ lmax → l2 ≤ lssmax → getVl1l2 true m y (row y) l1 l2 = .ok (V y l1 l2) :=
    fun y l1 l2 a1 a2 => getVl1l2_ok true m y (by rw [hrowlen]; omega)
  have hi : ∀ i : Fin (lmax + 1 - l0), 1 ≤ l0 + i.1 ∧ m ≤ l0 + i.1 ∧ l0 + i.1 ≤ lmax := by
    intro i; have := i.2; omega
  have hs : ∀ s : Fin (lssmax + 1 - l0), 1 ≤ l0 + s.1 ∧ m ≤ l0 + s.1 ∧ l0 + s.1 ≤ lssmax := by
    intro i; have := i.2; omega
  have scale : ∀ {f : ℝ → ℝ} {z : ℝ} (d : ℕ), Tendsto (fun y => y ^ d * f y) (𝓝[>] 0) (𝓝 z) →
      Tendsto (fun k => (n0 * k) ^ d * f (x k)) (𝓝[>] 0) (𝓝 (z / (L / Real.sqrt mu0) ^ d)) := by
    intro f z d h
    have h := ((h.comp hx0).mul (htx.pow d))
    rw [one_div, inv_pow, ← div_eq_mul_inv] at h
    refine h.congr' ?_
    filter_upwards [self_mem_nhdsWithin] with k hk
    have := pow_pos (hxpos k hk) d
    simp only [Function.comp]
    rw [div_pow]
    field_simp
  have hEE : ∀ i : Fin (lmax + 1 - l0), ∀ s : Fin (lssmax + 1 - l0),
      Tendsto (fun k => (n0 * k) ^ (l0 + i.1 + (l0 + s.1) + 1) *
        ((V (x k) (l0 + i.1) (l0 + s.1)).EEab * Real.exp (V (x k) (l0 + i.1) (l0 + s.1)).sk)) (𝓝[>] 0)
        (𝓝 ((transK0Ext m (l0 + i.1) (l0 + s.1)).1 * Real.exp (transK0Ext m (l0 + i.1) (l0 + s.1)).2 /
          (L / Real.sqrt mu0) ^ (l0 + i.1 + (l0 + s.1) + 1))) := by
    intro i s
    obtain ⟨i1, i2, i3⟩ := hi i
    obtain ⟨s1, s2, s3⟩ := hs s
    refine scale (f := fun y => (V y (l0 + i.1) (l0 + s.1)).EEab * Real.exp (V y (l0 + i.1) (l0 + s.1)).sk) _ ?_
    refine C55_ext_limit i1 s1 i3 s3 ?_ row (fun y => V y (l0 + i.1) (l0 + s.1)) hrowb fun y _ => hVok y i3 s3
    rw [Int.abs_eq_natAbs]; omega
  have hEM : ∀ i : Fin (lmax + 1 - l0), ∀ s : Fin (lssmax + 1 - l0),
      Tendsto (fun k => (n0 * k) ^ (l0 + i.1 + (l0 + s.1) + 1) *
        ((V (x k) (l0 + i.1) (l0 + s.1)).EMab * Real.exp (V (x k) (l0 + i.1) (l0 + s.1)).sk)) (𝓝[>] 0) (𝓝 0) := by
    intro i s
    obtain ⟨i1, i2, i3⟩ := hi i
    obtain ⟨s1, s2, s3⟩ := hs s
    have := scale (f := fun y => (V y (l0 + i.1) (l0 + s.1)).EMab * Real.exp (V y (l0 + i.1) (l0 + s.1)).sk) _
      (ext_mixing_limit i3 s3 row (fun y => V y (l0 + i.1) (l0 + s.1)) hrowb fun y _ => hVok y i3 s3)
    rwa [zero_div] at this
  have back : ∀ y l1 l2, (V y l1 l2).EEba = (-1) ^ (l1 + l2) * (V y l1 l2).EEab ∧
      (V y l1 l2).EMba = -((-1) ^ (l1 + l2) * (V y l1 l2).EMab) := fun y l1 l2 => vVal_back true m y (row y) l1 l2
  have hEEb : ∀ i : Fin (lmax + 1 - l0), ∀ s : Fin (lssmax + 1 - l0),
      Tendsto (fun k => (n0 * k) ^ (l0 + i.1 + (l0 + s.1) + 1) *
        ((V (x k) (l0 + i.1) (l0 + s.1)).EEba * Real.exp (V (x k) (l0 + i.1) (l0 + s.1)).sk)) (𝓝[>] 0)
        (𝓝 ((-1) ^ (l0 + s.1 + (l0 + i.1)) *
          ((transK0Ext m (l0 + i.1) (l0 + s.1)).1 * Real.exp (transK0Ext m (l0 + i.1) (l0 + s.1)).2) /
          (L / Real.sqrt mu0) ^ (l0 + s.1 + (l0 + i.1) + 1))) := by
    intro i s
    have h := (hEE i s).const_mul ((-1) ^ (l0 + s.1 + (l0 + i.1)))
    rw [← mul_div_assoc, add_comm (l0 + i.1) (l0 + s.1)] at h
    refine h.congr fun k => ?_
    rw [(back _ _ _).1, add_comm (l0 + i.1) (l0 + s.1)]
    ring
  have hEMb : ∀ i : Fin (lmax + 1 - l0), ∀ s : Fin (lssmax + 1 - l0),
      Tendsto (fun k => (n0 * k) ^ (l0 + i.1 + (l0 + s.1) + 1) *
        ((V (x k) (l0 + i.1) (l0 + s.1)).EMba * Real.exp (V (x k) (l0 + i.1) (l0 + s.1)).sk)) (𝓝[>] 0) (𝓝 0) := by
    intro i s
    have h := (hEM i s).const_mul (-(-1) ^ (l0 + i.1 + (l0 + s.1)))
    rw [mul_zero] at h
    refine h.congr fun k => ?_
    rw [(back _ _ _).2]
    ring
  -- put together
  have hmA : ∀ i : Fin (lmax + 1 - l0), _ := fun i => mieLimit_rescaled h1 (hA _ (hi i).1) he hmu
    (a := fun k => ⟨(a k).TE (l0 + i.1), (a k).TM (l0 + i.1), (a k).ln (l0 + i.1)⟩) fun k h => hk.sphereA k h _ (hi i).1
  have hmB : ∀ s : Fin (lssmax + 1 - l0), _ := fun s => mieLimit_rescaled h2 (hB _ (hs s).1) he hmu
    (a := fun k => ⟨(b k).TE (l0 + s.1), (b k).TM (l0 + s.1), (b k).ln (l0 + s.1)⟩) fun k h => hk.sphereB k h _ (hs s).1
  have main := det_roundTrip_limit (F := 𝓝[>] 0) l0 (t := fun k => n0 * k)
    (by filter_upwards [self_mem_nhdsWithin] with k hk using mul_pos hn0p hk)
    (aE := fun k i => (a k).TE (l0 + i.1) * Real.exp ((a k).ln (l0 + i.1)))
    (aM := fun k i => (a k).TM (l0 + i.1) * Real.exp ((a k).ln (l0 + i.1)))
    (bE := fun k i => (b k).TE (l0 + i.1) * Real.exp ((b k).ln (l0 + i.1)))
    (bM := fun k i => (b k).TM (l0 + i.1) * Real.exp ((b k).ln (l0 + i.1)))
    (fE := fun k => of fun i s => (V (x k) (l0 + i.1) (l0 + s.1)).EEab * Real.exp (V (x k) (l0 + i.1) (l0 + s.1)).sk)
    (fX := fun k => of fun i s => (V (x k) (l0 + i.1) (l0 + s.1)).EMab * Real.exp (V (x k) (l0 + i.1) (l0 + s.1)).sk)
    (gE := fun k => of fun i s => (V (x k) (l0 + i.1) (l0 + s.1)).EEba * Real.exp (V (x k) (l0 + i.1) (l0 + s.1)).sk)
    (gX := fun k => of fun i s => (V (x k) (l0 + i.1) (l0 + s.1)).EMba * Real.exp (V (x k) (l0 + i.1) (l0 + s.1)).sk)
    (f0 := of fun i s => (transK0Ext m (l0 + i.1) (l0 + s.1)).1 * Real.exp (transK0Ext m (l0 + i.1) (l0 + s.1)).2 /
          (L / Real.sqrt mu0) ^ (l0 + i.1 + (l0 + s.1) + 1))
    (g0 := of fun i s => (-1) ^ (l0 + s.1 + (l0 + i.1)) *
          ((transK0Ext m (l0 + i.1) (l0 + s.1)).1 * Real.exp (transK0Ext m (l0 + i.1) (l0 + s.1)).2) /
          (L / Real.sqrt mu0) ^ (l0 + s.1 + (l0 + i.1) + 1))
    (fun i => (hmA i).1) (fun i => (hmA i).2) (fun s => (hmB s).1) (fun s => (hmB s).2) hEE hEM hEEb hEMb
  obtain ⟨c1, c2⟩ := C72_k0_ext_operator h1 h2 (div_pos hL hsm) h0
  rw [c1.det, c2.det]
  refine main.congr' ?_
  filter_upwards [self_mem_nhdsWithin] with k hk'
  have hk' : 0 < k := hk'
  obtain ⟨e, q1, q2, q3⟩ := hk.blocks k hk'
  rw [(heps k hk').1] at q1
  cases q1
  have hbk : bes k = row (x k) := by
    rw [hrowb _ (hxpos k hk')] at q2
    injection q2 with q2; injection q2 with q2; exact q2.symm
  unfold blockmatricesAt roundTripElements transAb at q3
  rw [hbk, finM_ok (g := fun (i : Fin (lmax + 1 - l0)) (j : Fin (lssmax + 1 - l0)) => V (x k) (l0 + i.1) (l0 + j.1)) ?_] at q3
  · simp only [ok_bind] at q3
    exact (C11_blockmatrices_operator q3).det.symm
  · intro i
    exact finM_ok fun s => hVok _ (hi i).2.2 (hs s).2.2

/-- Materials for which the zero-frequency Mie coefficients are covered: perfect conductor, dielectric, conductor. -/
def Material.HasStatic (M : Material) : Prop :=
  M.cls = .pec ∨ (M.Dielectric ∧ M.Physical) ∨ (M.Conductor ∧ M.Physical)

theorem hasStatic_limit {T : BesTable} {l : ℕ} (hl : 1 ≤ l) (hT : ∀ x, 0 < x → BesOK T l x) (hlow : LowFreq T l)
    {m1 m2 : Material} (h : m1.HasStatic) (hd2 : m2.Dielectric) (h2 : m2.Physical) {R : ℝ} (hR : 0 < R)
    (frac : ℝ → ℝ → ℝ) : ∃ c, mieK0 frac m1 m2 l R = .ok c ∧ MieLimit T m1 m2 l R c := by
  rcases h with h | ⟨h, h'⟩ | ⟨h, h'⟩
  · exact C44_pec hl hT hlow h hd2 h2 hR frac
  · exact C44_dielectric hl hT hlow h h' hd2 h2 hR frac
  · exact C44_conductor hl hT hlow h h' hd2 h2 hR frac

/-- **C91.** Continuity at zero frequency.  Two separate spheres (perfect conductors, dielectrics or conductors) in a
dielectric medium with static permeability 1: as `k → 0+` the determinant `det(1 - M_m(k))` of the matrix assembled at
positive wavenumbers converges to `det(1 - M_TE) det(1 - M_TM)` of the two matrices assembled at zero frequency. -/
theorem C91_zero_frequency {T : BesTable} (hT : ∀ l, 1 ≤ l → ∀ x, 0 < x → BesOK T l x) (hlow : ∀ l, 1 ≤ l → LowFreq T l)
    {mA mB md : Material} (hA : mA.HasStatic) (hB : mB.HasStatic) (hd : md.Dielectric) (hp : md.Physical)
    (hmu : md.mu 0 = .ok 1) {r1 r2 L : ℝ} (h1 : 0 < r1) (h2 : 0 < r2) (hL : 0 < L) {lmax lssmax m : ℕ}
    {frac : ℝ → ℝ → ℝ} {a b : ℝ → MieCoef} {a0 b0 : MieCoef} {bes : ℝ → List ℝ}
    {B : ℝ → Blocks (lmax + 1 - transLmin m)}
    {TE TM : Matrix (Fin (lmax + 1 - transLmin m)) (Fin (lmax + 1 - transLmin m)) ℝ}
    (hk : FiniteK T mA mB md r1 r2 L lmax lssmax m a b bes B)
    (ha : ∀ l, 1 ≤ l → mieK0 frac mA md l r1 = .ok ⟨a0.TE l, a0.TM l, a0.ln l⟩)
    (hb : ∀ l, 1 ≤ l → mieK0 frac mB md l r2 = .ok ⟨b0.TE l, b0.TM l, b0.ln l⟩)
    (h0 : blockmatricesK0At lmax lssmax m r1 r2 L a0 b0 = .ok (TE, TM)) :
    Tendsto (fun k => (1 - fromBlocks (B k).EE (B k).EM (B k).ME (B k).MM).det) (𝓝[>] 0)
      (𝓝 ((1 - TE).det * (1 - TM).det)) := by
  refine zeroFreq_limit h1 h2 hL hd hp hmu (fun l hl => ?_) (fun l hl => ?_) hk
    (by rw [Real.sqrt_one, div_one]; exact h0)
  · obtain ⟨c, hc, hl⟩ := hasStatic_limit hl (hT l hl) (hlow l hl) hA hd hp h1 frac
    rw [ha l ‹_›] at hc; injection hc with hc; rw [hc]; exact hl
  · obtain ⟨c, hc, hl⟩ := hasStatic_limit hl (hT l hl) (hlow l hl) hB hd hp h2 frac
    rw [hb l ‹_›] at hc; injection hc with hc; rw [hc]; exact hl

/-- **C91.** The same for the logarithms, which enter the energy, whenever the static determinants do not vanish. -/
theorem C91_logarithm {T : BesTable} (hT : ∀ l, 1 ≤ l → ∀ x, 0 < x → BesOK T l x) (hlow : ∀ l, 1 ≤ l → LowFreq T l)
    {mA mB md : Material} (hA : mA.HasStatic) (hB : mB.HasStatic) (hd : md.Dielectric) (hp : md.Physical)
    (hmu : md.mu 0 = .ok 1) {r1 r2 L : ℝ} (h1 : 0 < r1) (h2 : 0 < r2) (hL : 0 < L) {lmax lssmax m : ℕ}
    {frac : ℝ → ℝ → ℝ} {a b : ℝ → MieCoef} {a0 b0 : MieCoef} {bes : ℝ → List ℝ}
    {B : ℝ → Blocks (lmax + 1 - transLmin m)}
    {TE TM : Matrix (Fin (lmax + 1 - transLmin m)) (Fin (lmax + 1 - transLmin m)) ℝ}
    (hk : FiniteK T mA mB md r1 r2 L lmax lssmax m a b bes B)
    (ha : ∀ l, 1 ≤ l → mieK0 frac mA md l r1 = .ok ⟨a0.TE l, a0.TM l, a0.ln l⟩)
    (hb : ∀ l, 1 ≤ l → mieK0 frac mB md l r2 = .ok ⟨b0.TE l, b0.TM l, b0.ln l⟩)
    (h0 : blockmatricesK0At lmax lssmax m r1 r2 L a0 b0 = .ok (TE, TM))
    (hTE : (1 - TE).det ≠ 0) (hTM : (1 - TM).det ≠ 0) :
    Tendsto (fun k => Real.log |(1 - fromBlocks (B k).EE (B k).EM (B k).ME (B k).MM).det|) (𝓝[>] 0)
      (𝓝 (Real.log |(1 - TE).det| + Real.log |(1 - TM).det|)) := by
  have h := C91_zero_frequency hT hlow hA hB hd hp hmu h1 h2 hL hk ha hb h0
  have e : Real.log |(1 - TE).det| + Real.log |(1 - TM).det| = Real.log |(1 - TE).det * (1 - TM).det| := by
    rw [abs_mul, Real.log_mul (abs_ne_zero.mpr hTE) (abs_ne_zero.mpr hTM)]
  rw [e]
  exact (Real.continuousAt_log (abs_ne_zero.mpr (mul_ne_zero hTE hTM))).tendsto.comp h.abs

/-- All the inputs of `C91_zero_frequency` exist, for the table of the code, for every choice of materials, geometry and
cut-offs with at least one multipole. -/
theorem C91_inputs_exist (xl : ℝ) {mA mB md : Material} (hA : mA.HasStatic) (hB : mB.HasStatic) (hd : md.Dielectric)
    (hp : md.Physical) {r1 r2 : ℝ} (L : ℝ) (h1 : 0 < r1) (h2 : 0 < r2) {lmax lssmax m : ℕ} (hm : max 1 m ≤ lmax)
    (hm' : max 1 m ≤ lssmax) (frac : ℝ → ℝ → ℝ) :
    ∃ a b a0 b0 bes B TE TM, FiniteK (codeBes (fnuTerms xl) false) mA mB md r1 r2 L lmax lssmax m a b bes B ∧
      (∀ l, 1 ≤ l → mieK0 frac mA md l r1 = .ok ⟨a0.TE l, a0.TM l, a0.ln l⟩) ∧
      (∀ l, 1 ≤ l → mieK0 frac mB md l r2 = .ok ⟨b0.TE l, b0.TM l, b0.ln l⟩) ∧
      blockmatricesK0At lmax lssmax m r1 r2 L a0 b0 = .ok (TE, TM) := by
  have hmd : md.cls ≠ .pec := by rw [hd.1]; simp
  have hlm : transLmin (m : ℤ) = max 1 m := by unfold transLmin; omega
  have lim : ∀ {M : Material} {R : ℝ}, M.HasStatic → 0 < R → ∀ l, 1 ≤ l → ∃ c, mieK0 frac M md l R = .ok c ∧
      MieLimit (codeBes (fnuTerms xl) false) M md l R c := fun hM hR l hl =>
    hasStatic_limit hl (C42_code_table hl xl false) (C44_code_table hl xl false) hM hd hp hR frac
  have stat : ∀ {M : Material} {R : ℝ}, M.HasStatic → 0 < R → ∃ a0 : MieCoef, ∀ l, 1 ≤ l →
      mieK0 frac M md l R = .ok ⟨a0.TE l, a0.TM l, a0.ln l⟩ := by
    intro M R hM hR
    refine ⟨⟨fun l => if h : 1 ≤ l then (lim hM hR l h).choose.TE else 0, fun l => if h : 1 ≤ l then (lim hM hR l h).choose.TM else 0,
      fun l => if h : 1 ≤ l then (lim hM hR l h).choose.ln else 0⟩, fun l hl => ?_⟩
    simp only [dif_pos hl]
    exact (lim hM hR l hl).choose_spec.1
  have fin : ∀ {M : Material} {R : ℝ}, M.HasStatic → 0 < R → ∃ a : ℝ → MieCoef, ∀ k, 0 < k → ∀ l, 1 ≤ l →
      mie (codeBes (fnuTerms xl) false) (codeBes (fnuTerms xl) false) M md l k R = .ok ⟨(a k).TE l, (a k).TM l, (a k).ln l⟩ := by
    intro M R hM hR
    have : ∀ k l, ∃ c : Mie, 0 < k → 1 ≤ l →
        mie (codeBes (fnuTerms xl) false) (codeBes (fnuTerms xl) false) M md l k R = .ok c := by
      intro k l
      by_cases hl : 1 ≤ l
      · obtain ⟨c, -, e0, mu0, v, -, -, -, hv, -⟩ := lim hM hR l hl
        exact ⟨v k, fun hk _ => hv k hk⟩
      · exact ⟨⟨0, 0, 0⟩, fun _ h => absurd h hl⟩
    choose c hc using this
    exact ⟨fun k => ⟨fun l => (c k l).TE, fun l => (c k l).TM, fun l => (c k l).ln⟩, fun k hk l hl => hc k l hk hl⟩
  obtain ⟨a0, ha0⟩ := stat hA h1
  obtain ⟨b0, hb0⟩ := stat hB h2
  obtain ⟨a, ha⟩ := fin hA h1
  obtain ⟨b, hb⟩ := fin hB h2
  have hn : 0 < lmax + 1 - transLmin (m : ℤ) := by omega
  have hpp : 0 < lssmax + 1 - transLmin (m : ℤ) := by omega
  have heps : ∀ k, 0 < k → ∃ e, md.epsilon k = .ok e := by
    intro k hk
    obtain ⟨h, -⟩ := medium_val hmd hp hk
    unfold Material.medium at h
    cases hq : md.epsilon k with
    | error er => rw [hq] at h; cases h
    | ok e => exact ⟨e, rfl⟩
  have blk : ∀ k, ∃ (row : List ℝ) (Bk : Blocks (lmax + 1 - transLmin m)), 0 < k → ∃ e, md.epsilon k = .ok e ∧
      transBessels [k * L * Real.sqrt e] (.int (lmax + lssmax + 1 : ℕ)) 1 = .ok [row] ∧
      blockmatricesAt lmax lssmax m true (k * L * Real.sqrt e) row (a k) (b k) = .ok Bk := by
    intro k
    by_cases hk : 0 < k
    · obtain ⟨e, he⟩ := heps k hk
      set y := k * L * Real.sqrt e
      set row := (List.range (lmax + lssmax + 1 + 1)).map (lnk1 y) with hrow
      have hlen : row.length = lmax + lssmax + 2 := by simp [hrow]
      have hV : transAb lmax lssmax m true y row = .ok fun i j =>
          vVal true m y row (transLmin (m : ℤ) + i.1) (transLmin (m : ℤ) + j.1) := by
        unfold transAb
        refine finM_ok fun i => finM_ok fun j => getVl1l2_ok true m y ?_
        have := i.2; have := j.2; omega
      cases hE : roundTripElements lmax lssmax m true y row (a k) (b k) with
      | error er => unfold roundTripElements at hE; rw [hV] at hE; cases hE
      | ok E =>
        obtain ⟨Bk, hBk⟩ := C11_blockmatrices_total hn hpp E
        refine ⟨row, Bk, fun _ => ⟨e, he, trans_row_ext _ _, ?_⟩⟩
        unfold blockmatricesAt
        rw [hE, ok_bind, hBk]
    · exact ⟨[], ⟨0, 0, 0, 0⟩, fun h => absurd h hk⟩
  choose bes B hB' using blk
  obtain ⟨⟨TE, TM⟩, h0⟩ := C72_k0_ext_total hn hpp r1 r2 L
    { lmin := transLmin m
      aTE := fun i => a0.TE (transLmin m + i.1)
      aTM := fun i => a0.TM (transLmin m + i.1)
      aLn := fun i => a0.ln (transLmin m + i.1)
      bTE := fun j => b0.TE (transLmin m + j.1)
      bTM := fun j => b0.TM (transLmin m + j.1)
      bLn := fun j => b0.ln (transLmin m + j.1)
      vSgn := fun i j => (transK0Ext m (transLmin m + i.1) (transLmin m + j.1)).1
      vLn := fun i j => (transK0Ext m (transLmin m + i.1) (transLmin m + j.1)).2 }
  exact ⟨a, b, a0, b0, bes, B, TE, TM, ⟨ha, hb, hB'⟩, ha0, hb0, h0⟩

/-- Two gold spheres (Drude) in water. -/
example : (⟨.lorentz, eGold, none⟩ : Material).HasStatic ∧ (⟨.lorentz, eWater, none⟩ : Material).mu 0 = .ok 1 := by
  refine ⟨.inr (.inr ⟨⟨by simp, ⟨⟨1.37e16, 0, 5.77e13⟩, by simp [eGold], by norm_num, rfl⟩, ?_⟩, ⟨?_, by simp, by simp⟩⟩), rfl⟩
  · norm_num [eGold]
  · norm_num [eGold]

/-! ## Magnetic media -/

theorem det_static_one {n p : ℕ} (hn : n = 1) (hp : p = 1) (l0 : ℕ) {r1 r2 L : ℝ} (a : Fin n → ℝ) (b : Fin p → ℝ)
    (v : Matrix (Fin n) (Fin p) ℝ) {x y z : ℝ} (ha : ∀ i, a i = x) (hb : ∀ i, b i = y) (hv : ∀ i j, v i j = z) :
    (1 - staticRoundTrip l0 r1 r2 L a b v).det = 1 - x * y * z ^ 2 * (r1 * r2 / L ^ 2) ^ (2 * l0 + 1) := by
  subst hn hp
  rw [det_fin_one, Matrix.sub_apply, Matrix.one_apply_eq]
  unfold staticRoundTrip
  rw [four_product, Fin.sum_univ_one]
  simp only [of_apply, ha, hb, hv, Fin.val_zero, add_zero]
  have : (-1 : ℝ) ^ (l0 + l0) = 1 := by rw [← two_mul, pow_mul]; norm_num
  rw [this, div_pow, mul_pow, ← pow_mul, show l0 + l0 + 1 = 2 * l0 + 1 by ring]
  rw [mul_comm 2 (2 * l0 + 1), pow_mul L]
  ring

theorem transK0Ext_dipole : (transK0Ext 0 1 1).1 * Real.exp (transK0Ext 0 1 1).2 = 3 := by
  have e : (transK0Ext 0 1 1).2 = Real.log 3 := by
    unfold transK0Ext
    simp only []
    have g : ∀ (z : ℝ) (n : ℕ), z = n → lgam (z + 1) = Real.log (n ! : ℝ) := by
      intro z n h; rw [h, lgam_nat]
    push_cast
    rw [g (1 + 1) 2 (by norm_num), g (2 * 1) 2 (by norm_num), g (2 * (1 + 1)) 4 (by norm_num),
      g (1 - 0) 1 (by norm_num), g (1 + 0) 1 (by norm_num), g (2 * 1 + 2 * 1 + 1) 5 (by norm_num), g 1 1 (by norm_num)]
    simp only [Nat.factorial, Nat.succ_eq_add_one]
    norm_num
    have h24 : Real.log 24 = 3 * Real.log 2 + Real.log 3 := by
      rw [show (24 : ℝ) = 2 ^ 3 * 3 by norm_num, Real.log_mul (by norm_num) (by norm_num), Real.log_pow]; norm_num
    have h120 : Real.log 120 = 3 * Real.log 2 + Real.log 3 + Real.log 5 := by
      rw [show (120 : ℝ) = 2 ^ 3 * 3 * 5 by norm_num, Real.log_mul (by norm_num) (by norm_num),
        Real.log_mul (by norm_num) (by norm_num), Real.log_pow]; norm_num
    rw [h24, h120]
    ring
  rw [e, Real.exp_log (by norm_num)]
  unfold transK0Ext
  simp

/-- Dipole approximation for perfect conductors: the static determinants for the distance `L`. -/
theorem dipole_static {mA mB md : Material} (hA : mA.cls = .pec) (hB : mB.cls = .pec) (hd : md.Dielectric) (hp : md.Physical)
    {r1 r2 L : ℝ} (h1 : 0 < r1) (h2 : 0 < r2) (hL : 0 < L) {frac : ℝ → ℝ → ℝ} {a0 b0 : MieCoef}
    {TE TM : Matrix (Fin (1 + 1 - transLmin (0 : ℕ))) (Fin (1 + 1 - transLmin (0 : ℕ))) ℝ}
    (ha : ∀ l, 1 ≤ l → mieK0 frac mA md l r1 = .ok ⟨a0.TE l, a0.TM l, a0.ln l⟩)
    (hb : ∀ l, 1 ≤ l → mieK0 frac mB md l r2 = .ok ⟨b0.TE l, b0.TM l, b0.ln l⟩)
    (h0 : blockmatricesK0At 1 1 (0 : ℕ) r1 r2 L a0 b0 = .ok (TE, TM)) :
    (1 - TE).det * (1 - TM).det = (1 - (r1 * r2 / L ^ 2) ^ 3) * (1 - 4 * (r1 * r2 / L ^ 2) ^ 3) := by
  have hE := exp_lnc (l := 1) le_rfl
  have hlm : transLmin ((0 : ℕ) : ℤ) = 1 := by unfold transLmin; norm_num
  have hn : 1 + 1 - transLmin ((0 : ℕ) : ℤ) = 1 := by rw [hlm]
  obtain ⟨e0, he, he0, -⟩ := dielectric_static hd hp
  have ga := ha 1 le_rfl
  have gb := hb 1 le_rfl
  rw [mieK0_start hd hp he le_rfl, hA] at ga
  rw [mieK0_start hd hp he le_rfl, hB] at gb
  simp only [] at ga gb
  injection ga with ga; injection ga with ga1 ga2 ga3
  injection gb with gb; injection gb with gb1 gb2 gb3
  have hE' : Real.exp (-Real.log (2 * ((1 : ℕ) : ℝ) + 1) - 2 * ln2dbl ((1 : ℕ) : ℝ)) = 1 / 3 := by
    rw [hE]; norm_num [Nat.doubleFactorial]
  obtain ⟨c1, c2⟩ := C72_k0_ext_operator h1 h2 hL h0
  have hidx : ∀ i : Fin (1 + 1 - transLmin ((0 : ℕ) : ℤ)), transLmin ((0 : ℕ) : ℤ) + i.1 = 1 := by
    intro i; have := i.2; omega
  rw [c1.det, c2.det,
    det_static_one (x := -1 / 3) (y := -1 / 3) (z := 3) hn hn _ _ _ _ (fun i => ?_) (fun i => ?_) (fun i j => ?_),
    det_static_one (x := 2 / 3) (y := 2 / 3) (z := 3) hn hn _ _ _ _ (fun i => ?_) (fun i => ?_) (fun i j => ?_)]
  · simp only [hlm]; norm_num
  all_goals simp only [hidx, of_apply]
  · rw [← ga3, ← ga2, hE']; norm_num
  · rw [← gb3, ← gb2, hE']; norm_num
  · exact transK0Ext_dipole
  · rw [← ga3, ← ga1, hE']; norm_num
  · rw [← gb3, ← gb1, hE']; norm_num
  · exact transK0Ext_dipole

/-- **C91, defect.** In a magnetic medium the continuity fails: the translation coefficients are evaluated at
`k L √ε`, the Mie coefficients at `k R √(ε μ)`.  For two separate perfectly conducting spheres in the dipole
approximation the determinants do not converge to the one assembled at zero frequency (static permeability
`μ ≤ 4`, `μ ≠ 1`). -/
theorem C91_magnetic_refuted {T : BesTable} (hT : ∀ l, 1 ≤ l → ∀ x, 0 < x → BesOK T l x) (hlow : ∀ l, 1 ≤ l → LowFreq T l)
    {mA mB md : Material} (hA : mA.cls = .pec) (hB : mB.cls = .pec) (hd : md.Dielectric) (hp : md.Physical) {mu0 : ℝ}
    (hmu : md.mu 0 = .ok mu0) (hne : mu0 ≠ 1) (hle : mu0 ≤ 4) {r1 r2 L : ℝ} (h1 : 0 < r1) (h2 : 0 < r2) (hsep : r1 + r2 < L)
    {frac : ℝ → ℝ → ℝ} {a b : ℝ → MieCoef} {a0 b0 : MieCoef} {bes : ℝ → List ℝ}
    {B : ℝ → Blocks (1 + 1 - transLmin (0 : ℕ))}
    {TE TM : Matrix (Fin (1 + 1 - transLmin (0 : ℕ))) (Fin (1 + 1 - transLmin (0 : ℕ))) ℝ}
    (hk : FiniteK T mA mB md r1 r2 L 1 1 (0 : ℕ) a b bes B)
    (ha : ∀ l, 1 ≤ l → mieK0 frac mA md l r1 = .ok ⟨a0.TE l, a0.TM l, a0.ln l⟩)
    (hb : ∀ l, 1 ≤ l → mieK0 frac mB md l r2 = .ok ⟨b0.TE l, b0.TM l, b0.ln l⟩)
    (h0 : blockmatricesK0At 1 1 (0 : ℕ) r1 r2 L a0 b0 = .ok (TE, TM)) :
    ¬ Tendsto (fun k => (1 - fromBlocks (B k).EE (B k).EM (B k).ME (B k).MM).det) (𝓝[>] 0)
      (𝓝 ((1 - TE).det * (1 - TM).det)) := by
  intro hlim
  have hL : 0 < L := by linarith
  have hmu0 : 0 < mu0 := by
    have := mu_val hp (le_refl (0 : ℝ))
    rw [hmu] at this; cases this
    exact muV_pos hp le_rfl
  have hsm := Real.sqrt_pos.mpr hmu0
  have hn : 0 < 1 + 1 - transLmin ((0 : ℕ) : ℤ) := by unfold transLmin; norm_num
  obtain ⟨⟨TE', TM'⟩, h0'⟩ : ∃ R, blockmatricesK0At 1 1 (0 : ℕ) r1 r2 (L / Real.sqrt mu0) a0 b0 = .ok R :=
    C72_k0_ext_total hn hn _ _ _ _
  have lim := zeroFreq_limit h1 h2 hL hd hp hmu (fun l hl => ?_) (fun l hl => ?_) hk h0'
  · have heq := tendsto_nhds_unique hlim lim
    rw [dipole_static hA hB hd hp h1 h2 hL ha hb h0,
      dipole_static hA hB hd hp h1 h2 (div_pos hL hsm) ha hb h0', div_pow L, Real.sq_sqrt hmu0.le] at heq
    have e : r1 * r2 / (L ^ 2 / mu0) = mu0 * (r1 * r2 / L ^ 2) := by field_simp
    rw [e] at heq
    have hu : r1 * r2 / L ^ 2 < 1 / 4 := by
      rw [div_lt_iff₀ (by positivity)]
      nlinarith [sq_nonneg (r1 - r2)]
    have hu0 : 0 < r1 * r2 / L ^ 2 := by positivity
    generalize r1 * r2 / L ^ 2 = u at hu hu0 heq
    have b1 : u ^ 3 < 1 / 64 := by
      have := pow_lt_pow_left₀ hu hu0.le (n := 3) (by norm_num); norm_num at this; exact this
    have b2 : (mu0 * u) ^ 3 ≤ 1 := by
      have : mu0 * u ≤ 1 := by nlinarith
      exact pow_le_one₀ (by positivity) this
    have hne' : (mu0 * u) ^ 3 ≠ u ^ 3 := by
      intro h
      have h' : mu0 * u = u := (pow_left_inj₀ (by positivity) hu0.le (by norm_num)).mp h
      exact hne (mul_right_cancel₀ hu0.ne' (by rw [h', one_mul]))
    generalize u ^ 3 = q at b1 heq hne'
    generalize (mu0 * u) ^ 3 = w at b2 heq hne'
    have : (w - q) * (5 - 4 * (w + q)) = 0 := by linear_combination heq
    rcases mul_eq_zero.mp this with h | h
    · exact hne' (by linarith)
    · linarith
  · obtain ⟨c, hc, hl⟩ := C44_pec hl (hT l hl) (hlow l hl) hA hd hp h1 frac
    rw [ha l ‹_›] at hc; injection hc with hc; rw [hc]; exact hl
  · obtain ⟨c, hc, hl⟩ := C44_pec hl (hT l hl) (hlow l hl) hB hd hp h2 frac
    rw [hb l ‹_›] at hc; injection hc with hc; rw [hc]; exact hl

/-- A magnetic medium as in `C91_magnetic_refuted`. -/
example : (⟨.lorentz, [], some (2, 1e15)⟩ : Material).Dielectric ∧ (⟨.lorentz, [], some (2, 1e15)⟩ : Material).Physical ∧
    (⟨.lorentz, [], some (2, 1e15)⟩ : Material).mu 0 = .ok 2 := by
  have hp : (⟨.lorentz, [], some (2, 1e15)⟩ : Material).Physical := ⟨by simp, by simp; norm_num, by simp⟩
  refine ⟨⟨rfl, by simp⟩, hp, ?_⟩
  rw [mu_val hp le_rfl]
  unfold Material.muV Spec.debyeMu
  norm_num

end CasSph
