import Verif.Lemmas.DipoleBound

/-! # The dipole limit of the contribution of zero frequency -/

namespace CasSph

open Spec Filter Topology
open scoped Nat

theorem AmpK0.dipole {frac : ℝ → ℝ → ℝ} {m md : Material} (hs : SphereMat m) (hd : MediumMat md) {r σ τ aE aM : ℝ} {A A' : ℕ → ℝ}
    (h : AmpK0 frac m md r σ τ A A') (ha : DipoleOf m md aE aM) : σ * A 1 = 2 / 3 * aE ∧ τ * A' 1 = 2 / 3 * aM := by
  obtain ⟨c, g1, g2, g3⟩ := mieK0_dipole hs hd ha frac r
  obtain ⟨-, -, w, w1, w2⟩ := h
  rw [w1 1 le_rfl] at g1
  injection g1 with g1
  subst g1
  obtain ⟨u, v⟩ := w2 1 le_rfl
  simp only at g2 g3
  rw [u] at g2
  rw [v] at g3
  constructor
  · rw [← g2]; ring
  · rw [← g3]; ring

/-- squares of the static translation coefficients between dipoles, `m = 0` and `m = 1` -/
theorem transK0_dipole : Real.exp (transK0Ext ((0 : ℕ) : ℤ) 1 1).2 ^ 2 = 9 ∧ Real.exp (transK0Ext ((1 : ℕ) : ℤ) 1 1).2 ^ 2 = 9 / 4 := by
  have k : kappaL 1 = 2 / 3 := by norm_num [kappaL, Nat.doubleFactorial]
  have h0 := transK0Ext_sq (l1 := 1) (l2 := 1) (m := 0) le_rfl le_rfl (by omega) (by omega)
  have h1 := transK0Ext_sq (l1 := 1) (l2 := 1) (m := 1) le_rfl le_rfl (by omega) (by omega)
  rw [k] at h0 h1
  norm_num [Nat.factorial] at h0 h1
  constructor
  · push_cast; linarith
  · push_cast; linarith

theorem kernS_dipole {m l0 : ℕ} (hl0 : 1 ≤ l0) {r1 r2 : ℝ} (h1 : 0 < r1) (h2 : 0 < r2) {A B : ℕ → ℝ} (hA : AmpRange A) (hB : AmpRange B) {s a b : ℝ}
    (hs : s = 1 ∨ s = -1) (hab : s * (A 1 * B 1) = a * b) {n p : ℕ} (hn : 1 ≤ n) (hp : 1 ≤ p) :
    Tendsto (fun L : ℝ => L ^ 6 * Real.log (1 - gram s (kernS m l0 r1 r2 L A B) n p).det) atTop
      (𝓝 (-(if l0 = 1 then a * b * (r1 * r2) ^ 3 * Real.exp (transK0Ext m 1 1).2 ^ 2 else 0))) := by
  have lim := logdet_limit (F := atTop) (w := fun L : ℝ => L ^ 6) (σ := fun _ => s) (H := fun L => kernS m l0 r1 r2 L A B) (n := n) (p := p)
    (h := fun i j => if l0 + i = 1 ∧ l0 + j = 1 then a * b * (r1 * r2) ^ 3 * Real.exp (transK0Ext m 1 1).2 ^ 2 else 0)
    (tendsto_pow_atTop (by norm_num)) (Eventually.of_forall fun _ => hs) ?_
  · have e : ∑ i ∈ Finset.range n, ∑ j ∈ Finset.range p, (if l0 + i = 1 ∧ l0 + j = 1 then a * b * (r1 * r2) ^ 3 * Real.exp (transK0Ext m 1 1).2 ^ 2 else 0) =
        if l0 = 1 then a * b * (r1 * r2) ^ 3 * Real.exp (transK0Ext m 1 1).2 ^ 2 else 0 := by
      rw [Finset.sum_eq_single 0]
      · rw [Finset.sum_eq_single 0]
        · simp
        · intro j _ hj; rw [if_neg (by omega)]
        · intro h; exact absurd (Finset.mem_range.mpr (by omega)) h
      · intro i _ hi; exact Finset.sum_eq_zero fun j _ => if_neg (by omega)
      · intro h; exact absurd (Finset.mem_range.mpr (by omega)) h
    rw [e] at lim
    exact lim
  · intro i _ j _
    have a0 := (hA (l0 + i) (by omega)).1
    have b0 := (hB (l0 + j) (by omega)).1
    have e : ∀ L : ℝ, 0 < L → L ^ 6 * (s * kernS m l0 r1 r2 L A B i j ^ 2) =
        s * (A (l0 + i) * B (l0 + j)) * (r1 ^ (2 * (l0 + i) + 1) * r2 ^ (2 * (l0 + j) + 1)) * Real.exp (transK0Ext m (l0 + i) (l0 + j)).2 ^ 2 *
          (1 / L) ^ (2 * (l0 + i + (l0 + j) - 2)) := by
      intro L hL
      unfold kernS
      rw [mul_pow, mul_pow, Real.sq_sqrt (by positivity), Real.sq_sqrt (by positivity), div_pow, ← pow_mul]
      obtain ⟨N, hN⟩ : ∃ N, l0 + i + (l0 + j) = N + 2 := ⟨l0 + i + (l0 + j) - 2, by omega⟩
      rw [hN, Nat.add_sub_cancel, show (N + 2 + 1) * 2 = 2 * N + 6 by ring, show L ^ (2 * N + 6) = L ^ (2 * N) * L ^ 6 by ring, one_div, inv_pow]
      have := pow_pos hL (2 * N)
      field_simp
    have hz : Tendsto (fun L : ℝ => 1 / L) atTop (𝓝 0) := tendsto_const_nhds.div_atTop tendsto_id
    have hp := (hz.pow (2 * (l0 + i + (l0 + j) - 2))).const_mul
      (s * (A (l0 + i) * B (l0 + j)) * (r1 ^ (2 * (l0 + i) + 1) * r2 ^ (2 * (l0 + j) + 1)) * Real.exp (transK0Ext m (l0 + i) (l0 + j)).2 ^ 2)
    have hv : s * (A (l0 + i) * B (l0 + j)) * (r1 ^ (2 * (l0 + i) + 1) * r2 ^ (2 * (l0 + j) + 1)) * Real.exp (transK0Ext m (l0 + i) (l0 + j)).2 ^ 2 *
        0 ^ (2 * (l0 + i + (l0 + j) - 2)) = if l0 + i = 1 ∧ l0 + j = 1 then a * b * (r1 * r2) ^ 3 * Real.exp (transK0Ext m 1 1).2 ^ 2 else 0 := by
      split
      · rename_i hh
        rw [hh.1, hh.2, hab, show 2 * (1 + 1 - 2) = 0 from rfl, pow_zero, mul_pow]
        ring
      · rw [zero_pow (by omega), mul_zero]
    rw [hv] at hp
    refine hp.congr' ?_
    filter_upwards [eventually_gt_atTop 0] with L hL
    exact (e L hL).symm

/-- `L⁶` times the value of `mSumme_k0`: static dipoles. -/
theorem pairK0_dipole {P : PairIn} (h : PairOK P) (frac : ℝ → ℝ → ℝ) {aE aM bE bM : ℝ} (ha : DipoleOf P.mat1 P.mat3 aE aM)
    (hb : DipoleOf P.mat2 P.mat3 bE bM) :
    ∃ z : ℝ → ℝ, (∀ L, P.L ≤ L → pairK0 frac (P.at L) = .ok (z L)) ∧
      Tendsto (fun L => L ^ 6 * z L) atTop (𝓝 (-(6 * (P.r1 * P.r2) ^ 3 * (aE * bE + aM * bM)))) := by
  obtain ⟨⟨σa, ea⟩, ⟨τa, ga⟩⟩ := sign_total h.m1.static h.m3.diel h.m3.phys
  obtain ⟨⟨σb, eb⟩, ⟨τb, gb⟩⟩ := sign_total h.m2.static h.m3.diel h.m3.phys
  obtain ⟨A, A', hA⟩ := ampK0_exists frac h.m1 h.m3 h.h1 ea ga
  obtain ⟨B, B', hB⟩ := ampK0_exists frac h.m2 h.m3 h.h2 eb gb
  have hl := h.hl
  have hls := h.hls
  have hM : ∀ L : ℝ, ∃ M, 1 ≤ M ∧ M ≤ P.lmax ∧ (P.L ≤ L → pairK0 frac (P.at L) = .ok (k0V 0 P.r1 P.r2 L P.lmax P.lssmax (σa * σb) (τa * τb) A A' B B' +
      2 * ∑ m ∈ Finset.Icc 1 M, k0V m P.r1 P.r2 L P.lmax P.lssmax (σa * σb) (τa * τb) A A' B B')) := by
    intro L
    obtain ⟨M, h1, h2, h3, -⟩ := C14_mSumme_k0 (lmax := P.lmax) (precision := P.precision)
      (L := fun m => .ok fun _ => k0V m P.r1 P.r2 L P.lmax P.lssmax (σa * σb) (τa * τb) A A' B B')
      (v := fun m _ => k0V m P.r1 P.r2 L P.lmax P.lssmax (σa * σb) (τa * τb) A A' B B') fun _ _ => rfl
    refine ⟨M, ?_, h2, fun hL => ?_⟩
    · rcases h3 with h3 | h3
      · exact h3.1
      · omega
    · rw [pairK0_kern (h.at hL) (A := A) (A' := A') (B := B) (B' := B') hA hB]
      have e : mSummeK0 (P.at L).lmax (P.at L).precision (fun m => .ok fun _ => k0V m (P.at L).r1 (P.at L).r2 (P.at L).L (P.at L).lmax (P.at L).lssmax
          (σa * σb) (τa * τb) A A' B B') = _ := h1
      rw [e, ok_bind]
      rfl
  choose M hM1 hM2 hM3 using hM
  refine ⟨_, hM3, ?_⟩
  · obtain ⟨u1, u2⟩ := hA.dipole h.m1 h.m3 ha
    obtain ⟨v1, v2⟩ := hB.dipole h.m2 h.m3 hb
    have sg : ∀ {x y : ℝ}, (x = 1 ∨ x = -1) → (y = 1 ∨ y = -1) → x * y = 1 ∨ x * y = -1 := by
      rintro x y (rfl | rfl) (rfl | rfl) <;> norm_num
    have hm : ∀ m : ℕ, m ≤ P.lmax → Tendsto (fun L : ℝ => L ^ 6 * k0V m P.r1 P.r2 L P.lmax P.lssmax (σa * σb) (τa * τb) A A' B B') atTop
        (𝓝 (-(if m ≤ 1 then 4 / 9 * (aE * bE + aM * bM) * (P.r1 * P.r2) ^ 3 * Real.exp (transK0Ext m 1 1).2 ^ 2 else 0))) := by
      intro m hm
      have hlm : 1 ≤ transLmin (m : ℤ) ∧ transLmin (m : ℤ) = max 1 m := by unfold transLmin; omega
      have e1 := kernS_dipole (m := m) hlm.1 h.h1 h.h2 hA.1 hB.1 (a := 2 / 3 * aE) (b := 2 / 3 * bE) (sg ea.sign eb.sign)
        (by rw [← u1, ← v1]; ring) (n := P.lmax + 1 - transLmin m) (p := P.lssmax + 1 - transLmin m) (by omega) (by omega)
      have e2 := kernS_dipole (m := m) hlm.1 h.h1 h.h2 hA.2.1 hB.2.1 (a := 2 / 3 * aM) (b := 2 / 3 * bM) (sg ga.sign gb.sign)
        (by rw [← u2, ← v2]; ring) (n := P.lmax + 1 - transLmin m) (p := P.lssmax + 1 - transLmin m) (by omega) (by omega)
      have e := e2.add e1
      have hv : -(if transLmin (m : ℤ) = 1 then 2 / 3 * aM * (2 / 3 * bM) * (P.r1 * P.r2) ^ 3 * Real.exp (transK0Ext m 1 1).2 ^ 2 else 0) +
          -(if transLmin (m : ℤ) = 1 then 2 / 3 * aE * (2 / 3 * bE) * (P.r1 * P.r2) ^ 3 * Real.exp (transK0Ext m 1 1).2 ^ 2 else 0) =
          -(if m ≤ 1 then 4 / 9 * (aE * bE + aM * bM) * (P.r1 * P.r2) ^ 3 * Real.exp (transK0Ext m 1 1).2 ^ 2 else 0) := by
        by_cases hm1 : m ≤ 1
        · have : transLmin (m : ℤ) = 1 := by omega
          rw [if_pos this, if_pos this, if_pos hm1]; ring
        · have : transLmin (m : ℤ) ≠ 1 := by omega
          rw [if_neg this, if_neg this, if_neg hm1]; ring
      rw [hv] at e
      refine e.congr fun L => ?_
      unfold k0V
      ring
    have t := partSum_limit (l := atTop) (f := fun m L => L ^ 6 * k0V m P.r1 P.r2 L P.lmax P.lssmax (σa * σb) (τa * τb) A A' B B')
      (g := fun m : ℕ => -(if m ≤ 1 then 4 / 9 * (aE * bE + aM * bM) * (P.r1 * P.r2) ^ 3 * Real.exp (transK0Ext m 1 1).2 ^ 2 else 0)) (n := P.lmax)
      (v := fun L => L ^ 6 * (k0V 0 P.r1 P.r2 L P.lmax P.lssmax (σa * σb) (τa * τb) A A' B B' +
        2 * ∑ m ∈ Finset.Icc 1 (M L), k0V m P.r1 P.r2 L P.lmax P.lssmax (σa * σb) (τa * τb) A A' B B'))
      hm (fun m h2 => by rw [if_neg (by omega), neg_zero]) hl
      (.of_forall fun L => ⟨M L, hM1 L, hM2 L, by rw [mul_add, ← Finset.mul_sum]; ring⟩)
    rw [if_pos (by omega), if_pos le_rfl, transK0_dipole.1, transK0_dipole.2] at t
    have hv : -(4 / 9 * (aE * bE + aM * bM) * (P.r1 * P.r2) ^ 3 * 9) + 2 * -(4 / 9 * (aE * bE + aM * bM) * (P.r1 * P.r2) ^ 3 * (9 / 4)) =
        -(6 * (P.r1 * P.r2) ^ 3 * (aE * bE + aM * bM)) := by ring
    rw [hv] at t
    exact t

end CasSph
