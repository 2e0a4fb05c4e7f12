import Verif.Lemmas.DipoleBasic
import Verif.Lemmas.StrongerDet
import Verif.Spec.Dipole

/-! # The dipole limit of the round-trip determinants -/

namespace CasSph

open Spec Filter Topology
open scoped Nat

/-- Static electric and magnetic polarisability of a sphere of unit radius in the medium `md`, in the units of the Clausius-Mossotti factor. -/
def DipoleOf (m md : Material) (aE aM : ℝ) : Prop :=
  (m.cls = .pec ∧ aE = 1 ∧ aM = -(1 / 2)) ∨
  (m.Dielectric ∧ aM = 0 ∧ ∃ e e3, m.epsilon 0 = .ok e ∧ md.epsilon 0 = .ok e3 ∧ aE = (e - e3) / (e + 2 * e3)) ∨
  (m.Conductor ∧ aE = 1 ∧ aM = 0)

theorem dipole_total {m md : Material} (h : SphereMat m) (hd : MediumMat md) : ∃ aE aM, DipoleOf m md aE aM := by
  obtain ⟨e3, h3, -, -⟩ := dielectric_static hd.diel hd.phys
  rcases h.static with h1 | ⟨h1, h2⟩ | ⟨h1, -⟩
  · exact ⟨1, -(1 / 2), .inl ⟨h1, rfl, rfl⟩⟩
  · obtain ⟨e, he, -, -⟩ := dielectric_static h1 h2
    exact ⟨_, 0, .inr (.inl ⟨h1, rfl, e, e3, he, h3, rfl⟩)⟩
  · exact ⟨1, 0, .inr (.inr ⟨h1, rfl, rfl⟩)⟩

/-- The static coefficients of the dipole mode. -/
theorem mieK0_dipole {m md : Material} (h : SphereMat m) (hd : MediumMat md) {aE aM : ℝ} (ha : DipoleOf m md aE aM) (frac : ℝ → ℝ → ℝ) (r : ℝ) :
    ∃ c, mieK0 frac m md 1 r = .ok c ∧ c.TM * Real.exp c.ln = 2 / 3 * aE ∧ c.TE * Real.exp c.ln = 2 / 3 * aM := by
  obtain ⟨e3, h3, he3, -⟩ := dielectric_static hd.diel hd.phys
  have hl : Real.exp (-Real.log (2 * (1 : ℕ) + 1) - 2 * ln2dbl (1 : ℕ)) = 1 / 3 := by
    rw [exp_lnc (le_refl 1)]; norm_num [Nat.doubleFactorial]
  rcases ha with ⟨h1, rfl, rfl⟩ | ⟨h1, rfl, e, e3', he, he', rfl⟩ | ⟨h1, rfl, rfl⟩
  · refine ⟨_, by rw [mieK0_start hd.diel hd.phys h3 (le_refl 1), h1], ?_, ?_⟩ <;> simp only [hl] <;> norm_num
  · rw [h3] at he'
    injection he' with he'
    subst he'
    obtain ⟨f1, f2⟩ := dielectric_flags h1
    obtain ⟨e', q1, he0, -⟩ := dielectric_static h1 h.phys
    rw [he] at q1
    injection q1 with q1
    subst q1
    have key : mieK0 frac m md 1 r = .ok ⟨(-1) ^ 1 * (-((1 : ℕ) + 1) * (1 - 1) / ((1 : ℕ) * (1 + 1) + 1)),
        -(-1) ^ 1 * (((1 : ℕ) + 1) * ((1 * e - 1 * e3) / ((1 : ℕ) * 1 * e + ((1 : ℕ) + 1) * 1 * e3))), -Real.log (2 * (1 : ℕ) + 1) - 2 * ln2dbl (1 : ℕ)⟩ := by
      rw [mieK0_start hd.diel hd.phys h3 (le_refl 1), h1.1]
      simp only
      rw [mu_val h.phys le_rfl, ok_bind, f1, f2]
      simp only [ok_bind, not_true_eq_false, if_false, if_true]
      rw [he]
      simp only [ok_bind, muV_of_none h.mag, muV_of_none hd.mag, one_mul, mul_one]
      rw [Real.sq_sqrt he0.le, Real.sq_sqrt he3.le, cdiv_ok (by positivity), ok_bind, cdiv_ok (by positivity), ok_bind]
    refine ⟨_, key, ?_, ?_⟩ <;> simp only [hl]
    · have : e + 2 * e3 ≠ 0 := by positivity
      norm_num
      field_simp
    · norm_num
  · obtain ⟨f1, f2⟩ := conductor_flags h1
    have key : mieK0 frac m md 1 r = .ok ⟨(-1) ^ 1 * (-((1 : ℕ) + 1) * (1 - 1) / ((1 : ℕ) * (1 + 1) + 1)),
        -(-1) ^ 1 * (((1 : ℕ) + 1) / (1 : ℕ)), -Real.log (2 * (1 : ℕ) + 1) - 2 * ln2dbl (1 : ℕ)⟩ := by
      rw [mieK0_start hd.diel hd.phys h3 (le_refl 1)]
      cases hc : m.cls with
      | pec => exact absurd hc h1.cls
      | _ =>
        simp only
        rw [mu_val h.phys le_rfl, ok_bind, f1, f2]
        simp only [ok_bind, not_true_eq_false, if_false, muV_of_none h.mag, muV_of_none hd.mag]
        rw [cdiv_ok (by positivity), ok_bind]
        simp only [Bool.false_eq_true, if_false]
    refine ⟨_, key, ?_, ?_⟩ <;> simp only [hl] <;> norm_num

/-- Coefficient of `k³` of the signed amplitude, for the modes `(P, i)`. -/
noncomputable def dipC (κ r aE aM : ℝ) (P : Bool) (i : ℕ) : ℝ := if i = 0 then 2 / 3 * (if P then aE else -aM) * (κ * r) ^ 3 else 0

theorem amp_limit {m md : Material} (h : SphereMat m) (hd : MediumMat md) {aE aM : ℝ} (ha : DipoleOf m md aE aM) {r : ℝ} (hr : 0 < r) {e3 : ℝ}
    (h3 : md.epsilon 0 = .ok e3) {σ : ℝ → ℝ} {A : ℝ → Bool → ℕ → ℝ} (hA : ∀ k, 0 < k → Amp m md k r (σ k) (A k)) (P : Bool) (i : ℕ) :
    Tendsto (fun k => σ k * A k P i / k ^ 3) (𝓝[>] 0) (𝓝 (dipC (Real.sqrt e3) r aE aM P i)) := by
  have hl : 1 ≤ i + 1 := by omega
  obtain ⟨c, k1, e0, mu0, v, q1, q2, q3, q4, q5, q6⟩ :=
    hasStatic_limit hl (C42_exact_table hl) (exactBes_low hl) h.static hd.diel hd.phys hr (fun _ _ => 0)
  rw [h3] at q1
  injection q1 with q1
  subst q1
  rw [mu_val hd.phys le_rfl, muV_of_none hd.mag] at q2
  injection q2 with q2
  subst q2
  rw [mul_one] at q3 q5 q6
  set n := Real.sqrt e3 with hn0
  have hn : 0 < n := Real.sqrt_pos.mpr q3
  have hval : ∀ k, 0 < k → (v k).TE * Real.exp (v k).ln = σ k * (-1) ^ (i + 1) * A k false i ∧
      (v k).TM * Real.exp (v k).ln = -(σ k * (-1) ^ (i + 1) * A k true i) := by
    intro k hk
    obtain ⟨w, b, w1, -, w2⟩ := hA k hk
    have e := q4 k hk
    rw [w1 _ hl] at e
    injection e with e
    rw [← e]
    exact (w2 i).2
  have hsg : ((-1 : ℝ) ^ (i + 1)) * (-1) ^ (i + 1) = 1 := by rw [← mul_pow]; norm_num
  have main : Tendsto (fun k => σ k * A k P i / (n * r * k) ^ (2 * (i + 1) + 1)) (𝓝[>] 0)
      (𝓝 (if P then -((-1) ^ (i + 1) * (c.TM * Real.exp c.ln)) else (-1) ^ (i + 1) * (c.TE * Real.exp c.ln))) := by
    cases P with
    | false =>
      simp only [Bool.false_eq_true, if_false]
      refine (q5.const_mul ((-1) ^ (i + 1))).congr' ?_
      filter_upwards [self_mem_nhdsWithin] with k hk
      rw [(hval k hk).1]
      have hmul : ∀ {s x y D : ℝ}, s * s = 1 → s * (x * s * y / D) = x * y / D := by
        intro s x y D hs
        calc s * (x * s * y / D) = (s * s) * (x * y / D) := by ring
          _ = _ := by rw [hs, one_mul]
      exact hmul hsg
    | true =>
      simp only [if_true]
      refine ((q6.const_mul ((-1) ^ (i + 1))).neg).congr' ?_
      filter_upwards [self_mem_nhdsWithin] with k hk
      rw [(hval k hk).2]
      have hmul : ∀ {s x y D : ℝ}, s * s = 1 → -(s * (-(x * s * y) / D)) = x * y / D := by
        intro s x y D hs
        calc -(s * (-(x * s * y) / D)) = (s * s) * (x * y / D) := by ring
          _ = _ := by rw [hs, one_mul]
      exact hmul hsg
  have hk0 : Tendsto (fun k : ℝ => k) (𝓝[>] 0) (𝓝 0) := tendsto_nhdsWithin_of_tendsto_nhds tendsto_id
  have sc : Tendsto (fun k => σ k * A k P i / (n * r * k) ^ (2 * (i + 1) + 1) * ((n * r) ^ (2 * (i + 1) + 1) * k ^ (2 * i))) (𝓝[>] 0)
      (𝓝 ((if P then -((-1) ^ (i + 1) * (c.TM * Real.exp c.ln)) else (-1) ^ (i + 1) * (c.TE * Real.exp c.ln)) * ((n * r) ^ (2 * (i + 1) + 1) * 0 ^ (2 * i)))) :=
    main.mul ((hk0.pow (2 * i)).const_mul _)
  have elim : dipC n r aE aM P i =
      (if P then -((-1) ^ (i + 1) * (c.TM * Real.exp c.ln)) else (-1) ^ (i + 1) * (c.TE * Real.exp c.ln)) * ((n * r) ^ (2 * (i + 1) + 1) * 0 ^ (2 * i)) := by
    unfold dipC
    rcases Nat.eq_zero_or_pos i with rfl | hi
    · obtain ⟨c', g1, g2, g3⟩ := mieK0_dipole h hd ha (fun _ _ => 0) r
      rw [zero_add, g1] at k1
      injection k1 with k1
      subst k1
      rw [if_pos rfl, g2, g3]
      cases P <;> simp
    · rw [if_neg (by omega), zero_pow (by omega), mul_zero, mul_zero]
  rw [elim]
  refine sc.congr' ?_
  filter_upwards [self_mem_nhdsWithin] with k hk
  have hk : 0 < k := hk
  rw [mul_pow (n * r) k]
  have : k ^ (2 * (i + 1) + 1) = k ^ (2 * i) * k ^ 3 := by ring
  rw [this]
  have a := pow_pos (mul_pos hn hr) (2 * (i + 1) + 1)
  have b := pow_pos hk (2 * i)
  field_simp

/-- Amplitudes of a sphere for all wavenumbers. -/
theorem amp_fun {m md : Material} (h : SphereMat m) (hd : MediumMat md) {r : ℝ} (hr : 0 < r) :
    ∃ (σ : ℝ → ℝ) (A : ℝ → Bool → ℕ → ℝ), ∀ k, 0 < k → (σ k = 1 ∨ σ k = -1) ∧ Amp m md k r (σ k) (A k) := by
  choose! σ hσ using fun k (hk : 0 < k) => dense_total h hd hk
  choose! A hA using fun k (hk : 0 < k) => amp_exists h hd hk hr (hσ k hk)
  exact ⟨σ, A, fun k hk => ⟨(hσ k hk).sign, hA k hk⟩⟩

theorem tendsto_div_zero {x : ℝ} (hx : 0 < x) : Tendsto (fun L => x / L) atTop (𝓝[>] 0) := by
  refine tendsto_nhdsWithin_iff.mpr ⟨tendsto_const_nhds.div_atTop tendsto_id, ?_⟩
  filter_upwards [eventually_gt_atTop 0] with L hL
  exact div_pos hx hL

theorem Amp.nonneg {m md : Material} {k r σ : ℝ} {A : Bool → ℕ → ℝ} (h : Amp m md k r σ A) (P : Bool) (i : ℕ) : 0 ≤ A P i := by
  obtain ⟨c, b, -, -, hr⟩ := h
  exact ((hr i).1 P).1

/-- `L⁶ ln det(1 - M_m)` at the wavenumber `x/L`. -/
theorem lnDetV_dipole {P : PairIn} (h : PairOK P) {aE aM bE bM : ℝ} (ha : DipoleOf P.mat1 P.mat3 aE aM) (hb : DipoleOf P.mat2 P.mat3 bE bM) {e3 : ℝ}
    (h3 : P.mat3.epsilon 0 = .ok e3) {m : ℕ} (hm : max 1 m ≤ P.lmax) {x : ℝ} (hx : 0 < x) :
    Tendsto (fun L => L ^ 6 * lnDetV (P.at L) m (x / L)) atTop
      (𝓝 (-∑ i ∈ Finset.range (2 * (P.lmax + 1 - transLmin m)), ∑ s ∈ Finset.range (2 * (P.lssmax + 1 - transLmin m)),
        x ^ 3 * dipC (Real.sqrt e3) P.r1 aE aM i.bodd (m - 1 + i.div2) * (x ^ 3 * dipC (Real.sqrt e3) P.r2 bE bM s.bodd (m - 1 + s.div2)) *
          fab m (Real.sqrt e3 * x) i.bodd s.bodd (m - 1 + i.div2) (m - 1 + s.div2) ^ 2)) := by
  obtain ⟨σa, A, hA⟩ := amp_fun h.m1 h.m3 h.h1
  obtain ⟨σb, B, hB⟩ := amp_fun h.m2 h.m3 h.h2
  obtain ⟨e3', q1, he3, heps⟩ := dielectric_static h.m3.diel h.m3.phys
  rw [h3] at q1
  injection q1 with q1
  subst q1
  have hk := tendsto_div_zero hx
  have hκ : 0 < Real.sqrt e3 := Real.sqrt_pos.mpr he3
  have lim := logdet_limit (F := atTop) (w := fun L : ℝ => L ^ 6) (σ := fun L => σa (x / L) * σb (x / L))
    (H := fun L => kern m (x / L * L * Real.sqrt (P.mat3.epsV (x / L))) (m - 1) (A (x / L)) (B (x / L)))
    (n := 2 * (P.lmax + 1 - transLmin m)) (p := 2 * (P.lssmax + 1 - transLmin m))
    (h := fun i s => x ^ 3 * dipC (Real.sqrt e3) P.r1 aE aM i.bodd (m - 1 + i.div2) * (x ^ 3 * dipC (Real.sqrt e3) P.r2 bE bM s.bodd (m - 1 + s.div2)) *
          fab m (Real.sqrt e3 * x) i.bodd s.bodd (m - 1 + i.div2) (m - 1 + s.div2) ^ 2)
    (tendsto_pow_atTop (by norm_num)) ?_ ?_
  · refine lim.congr' ?_
    filter_upwards [eventually_ge_atTop P.L, eventually_gt_atTop 0] with L hL hL0
    have hk0 : 0 < x / L := div_pos hx hL0
    rw [(lnDetV_kern (h.at hL) (m := m) hm hk0 (hA _ hk0).2 (hB _ hk0).2).2]
    rfl
  · filter_upwards [eventually_gt_atTop 0] with L hL0
    have hk0 : 0 < x / L := div_pos hx hL0
    rcases (hA _ hk0).1 with e | e <;> rcases (hB _ hk0).1 with e' | e' <;> rw [e, e'] <;> norm_num
  · intro i _ s _
    have a := ((amp_limit h.m1 h.m3 ha h.h1 h3 (fun k hk => (hA k hk).2) i.bodd (m - 1 + i.div2)).comp hk).const_mul (x ^ 3)
    have b := ((amp_limit h.m2 h.m3 hb h.h2 h3 (fun k hk => (hB k hk).2) s.bodd (m - 1 + s.div2)).comp hk).const_mul (x ^ 3)
    have e : Tendsto (fun L => Real.sqrt (P.mat3.epsV (x / L)) * x) atTop (𝓝 (Real.sqrt e3 * x)) :=
      ((Real.continuous_sqrt.tendsto e3).comp (heps.comp hk)).mul_const x
    have f := ((fab_continuousAt m i.bodd s.bodd (m - 1 + i.div2) (m - 1 + s.div2) (mul_pos hκ hx)).tendsto.comp e).pow 2
    refine ((a.mul b).mul f).congr' ?_
    filter_upwards [eventually_gt_atTop 0] with L hL0
    have hk0 : 0 < x / L := div_pos hx hL0
    have a0 := (hA _ hk0).2.nonneg i.bodd (m - 1 + i.div2)
    have b0 := (hB _ hk0).2.nonneg s.bodd (m - 1 + s.div2)
    simp only [Function.comp]
    have ex : x / L * L * Real.sqrt (P.mat3.epsV (x / L)) = Real.sqrt (P.mat3.epsV (x / L)) * x := by
      rw [div_mul_cancel₀ _ hL0.ne', mul_comm]
    rw [ex]
    unfold kern
    rw [mul_pow, mul_pow, Real.sq_sqrt a0, Real.sq_sqrt b0, div_pow]
    field_simp

/-- Sums over the modes of which only the dipoles contribute. -/
theorem dipole_sum (g : Bool → ℕ → Bool → ℕ → ℝ) {n p : ℕ} (hn : 1 ≤ n) (hp : 1 ≤ p) (h1 : ∀ P i Q s, i ≠ 0 → g P i Q s = 0)
    (h2 : ∀ P i Q s, s ≠ 0 → g P i Q s = 0) :
    ∑ i ∈ Finset.range (2 * n), ∑ s ∈ Finset.range (2 * p), g i.bodd i.div2 s.bodd s.div2 =
      g false 0 false 0 + g false 0 true 0 + g true 0 false 0 + g true 0 true 0 := by
  have e1 : ∀ i : ℕ, ∑ s ∈ Finset.range (2 * p), g i.bodd i.div2 s.bodd s.div2 = g i.bodd i.div2 false 0 + g i.bodd i.div2 true 0 := by
    intro i
    rw [sum_interleave (fun Q s => g i.bodd i.div2 Q s)]
    rw [Finset.sum_eq_single 0]
    · intro s _ hs; rw [h2 _ _ _ _ hs, h2 _ _ _ _ hs, add_zero]
    · intro h; exact absurd (Finset.mem_range.mpr (by omega)) h
  rw [Finset.sum_congr rfl fun i _ => e1 i, sum_interleave (fun P i => g P i false 0 + g P i true 0), Finset.sum_eq_single 0]
  · ring
  · intro i _ hi; rw [h1 _ _ _ _ hi, h1 _ _ _ _ hi, h1 _ _ _ _ hi, h1 _ _ _ _ hi]; ring
  · intro h; exact absurd (Finset.mem_range.mpr (by omega)) h

/-- A sum over `m` that was stopped at some `m ≥ 1`. -/
def PartSum (P : PairIn) (k v : ℝ) : Prop := ∃ M, 1 ≤ M ∧ M ≤ P.lmax ∧ v = lnDetV P 0 k + 2 * ∑ m ∈ Finset.Icc 1 M, lnDetV P m k

theorem partSum_limit {l : Filter ℝ} {f : ℕ → ℝ → ℝ} {g : ℕ → ℝ} {n : ℕ} {v : ℝ → ℝ} (hf : ∀ m ≤ n, Tendsto (f m) l (𝓝 (g m))) (hg : ∀ m, 2 ≤ m → g m = 0)
    (hn : 1 ≤ n) (hv : ∀ᶠ L in l, ∃ M, 1 ≤ M ∧ M ≤ n ∧ v L = f 0 L + 2 * ∑ m ∈ Finset.Icc 1 M, f m L) : Tendsto v l (𝓝 (g 0 + 2 * g 1)) := by
  have h01 := (hf 0 (by omega)).add ((hf 1 hn).const_mul 2)
  have ht : Tendsto (fun L => 2 * ∑ m ∈ Finset.Icc 2 n, |f m L|) l (𝓝 0) := by
    have : Tendsto (fun L => 2 * ∑ m ∈ Finset.Icc 2 n, |f m L|) l (𝓝 (2 * ∑ m ∈ Finset.Icc 2 n, (0 : ℝ))) := by
      refine (tendsto_finsetSum _ fun m hm => ?_).const_mul 2
      have h2 := Finset.mem_Icc.mp hm
      have := (hf m h2.2).abs
      rwa [hg m h2.1, abs_zero] at this
    simpa using this
  have hd : Tendsto (fun L => v L - (f 0 L + 2 * f 1 L)) l (𝓝 0) := by
    refine squeeze_zero_norm' ?_ ht
    filter_upwards [hv] with L hL
    obtain ⟨M, h1, h2, e⟩ := hL
    have e' : v L - (f 0 L + 2 * f 1 L) = 2 * ∑ m ∈ Finset.Icc 2 M, f m L := by
      rw [e, ← Finset.insert_Icc_succ_left_eq_Icc h1, Finset.sum_insert (by simp)]
      simp only [Nat.succ_eq_succ, Nat.succ_eq_add_one]
      norm_num
      ring
    rw [e', Real.norm_eq_abs, abs_mul, abs_of_pos (show (0 : ℝ) < 2 by norm_num)]
    refine mul_le_mul_of_nonneg_left ((Finset.abs_sum_le_sum_abs _ _).trans ?_) (by norm_num)
    exact Finset.sum_le_sum_of_subset_of_nonneg (Finset.Icc_subset_Icc_right h2) fun _ _ _ => abs_nonneg _
  have := hd.add h01
  rw [zero_add] at this
  exact this.congr fun L => by ring

/-- `L⁶` times the sum over `m` at the wavenumber `x/L`, wherever it is stopped: the interaction of two dipoles. -/
theorem part_dipole {P : PairIn} (h : PairOK P) {aE aM bE bM : ℝ} (ha : DipoleOf P.mat1 P.mat3 aE aM) (hb : DipoleOf P.mat2 P.mat3 bE bM) {e3 : ℝ}
    (h3 : P.mat3.epsilon 0 = .ok e3) {x : ℝ} (hx : 0 < x) {v : ℝ → ℝ} (hv : ∀ᶠ L in atTop, PartSum (P.at L) (x / L) (v L)) :
    Tendsto (fun L => L ^ 6 * v L) atTop
      (𝓝 (-((P.r1 * P.r2) ^ 3 * dipolePhi (aE * bE + aM * bM) (aE * bM + aM * bE) (Real.sqrt e3 * x)))) := by
  have hl := h.hl
  have hls := h.hls
  obtain ⟨e3', q1, he3, -⟩ := dielectric_static h.m3.diel h.m3.phys
  rw [h3] at q1
  injection q1 with q1
  subst q1
  have hκ : 0 < Real.sqrt e3 := Real.sqrt_pos.mpr he3
  set κ := Real.sqrt e3
  have hy : 0 < κ * x := mul_pos hκ hx
  set G : ℕ → ℝ := fun m => -∑ i ∈ Finset.range (2 * (P.lmax + 1 - transLmin m)), ∑ s ∈ Finset.range (2 * (P.lssmax + 1 - transLmin m)),
        x ^ 3 * dipC κ P.r1 aE aM i.bodd (m - 1 + i.div2) * (x ^ 3 * dipC κ P.r2 bE bM s.bodd (m - 1 + s.div2)) *
          fab m (κ * x) i.bodd s.bodd (m - 1 + i.div2) (m - 1 + s.div2) ^ 2 with hG
  have hz : ∀ m, 2 ≤ m → G m = 0 := by
    intro m hm
    rw [hG]
    simp only [neg_eq_zero]
    refine Finset.sum_eq_zero fun i _ => Finset.sum_eq_zero fun s _ => ?_
    have hi : m - 1 + i.div2 ≠ 0 := by omega
    have : dipC κ P.r1 aE aM i.bodd (m - 1 + i.div2) = 0 := by unfold dipC; rw [if_neg hi]
    rw [this]
    ring
  have hlim : Tendsto (fun L => L ^ 6 * v L) atTop (𝓝 (G 0 + 2 * G 1)) := by
    refine partSum_limit (f := fun m L => L ^ 6 * lnDetV (P.at L) m (x / L)) (n := P.lmax)
      (fun m hm => lnDetV_dipole h ha hb h3 (m := m) (by omega) hx) hz hl ?_
    filter_upwards [hv] with L hL
    obtain ⟨M, h1, h2, e⟩ := hL
    refine ⟨M, h1, h2, ?_⟩
    rw [e, mul_add, ← Finset.mul_sum]
    ring
  have t0 : transLmin ((0 : ℕ) : ℤ) = 1 := by unfold transLmin; omega
  have t1 : transLmin ((1 : ℕ) : ℤ) = 1 := by unfold transLmin; omega
  have g : ∀ m : ℕ, m - 1 = 0 → transLmin (m : ℤ) = 1 → G m = -((fun P' i Q s => x ^ 3 * dipC κ P.r1 aE aM P' i * (x ^ 3 * dipC κ P.r2 bE bM Q s) *
          fab m (κ * x) P' Q i s ^ 2) false 0 false 0 + (fun P' i Q s => x ^ 3 * dipC κ P.r1 aE aM P' i * (x ^ 3 * dipC κ P.r2 bE bM Q s) *
          fab m (κ * x) P' Q i s ^ 2) false 0 true 0 + (fun P' i Q s => x ^ 3 * dipC κ P.r1 aE aM P' i * (x ^ 3 * dipC κ P.r2 bE bM Q s) *
          fab m (κ * x) P' Q i s ^ 2) true 0 false 0 + (fun P' i Q s => x ^ 3 * dipC κ P.r1 aE aM P' i * (x ^ 3 * dipC κ P.r2 bE bM Q s) *
          fab m (κ * x) P' Q i s ^ 2) true 0 true 0) := by
    intro m hm ht
    rw [hG]
    simp only [hm, ht, zero_add]
    rw [dipole_sum (fun P' i Q s => x ^ 3 * dipC κ P.r1 aE aM P' i * (x ^ 3 * dipC κ P.r2 bE bM Q s) *
          fab m (κ * x) P' Q i s ^ 2) (by omega) (by omega)]
    · intro P' i Q s hi; simp [dipC, hi]
    · intro P' i Q s hi; simp [dipC, hi]
  have val : G 0 + 2 * G 1 = -((P.r1 * P.r2) ^ 3 * dipolePhi (aE * bE + aM * bM) (aE * bM + aM * bE) (κ * x)) := by
    rw [g 0 rfl t0, g 1 rfl t1]
    simp only [fab_m0 hy, fab_m1 hy, dipC, if_true, Bool.false_eq_true, if_false, reduceCtorEq]
    unfold dipolePhi
    rw [show -(2 * (κ * x)) = -(κ * x) + -(κ * x) by ring, Real.exp_add]
    field_simp
    ring
  rw [val] at hlim
  exact hlim

end CasSph
