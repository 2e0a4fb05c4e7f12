import Verif.Props.ScatLimits
import Verif.Props.Materials
import Verif.Lemmas.Turan

/-! # C45: `mie_k0` for plasma spheres -/

namespace CasSph

open Spec Filter Topology Nat

/-- a Lorentz material with an undamped oscillator at frequency zero -/
structure Material.Plasma (M : Material) : Prop where
  cls : M.cls = .lorentz
  free : ∃ p ∈ M.e, p.wP ≠ 0 ∧ p.wR = 0 ∧ p.gamma = 0

/-- the square of the effective plasma wavenumber -/
noncomputable def Material.wSq (M : Material) : ℝ := (M.e.map plasmaSq).sum

theorem plasmaSq_nonneg (p : Osc) : 0 ≤ plasmaSq p := by unfold plasmaSq; split_ifs <;> positivity

theorem wSq_pos {M : Material} (hP : M.Plasma) : 0 < M.wSq := by
  obtain ⟨p, hp, h1, h2, h3⟩ := hP.free
  have ho := omegaNorm_pos
  have : plasmaSq p ≤ M.wSq := by
    apply List.single_le_sum
    · intro x hx
      rw [List.mem_map] at hx
      obtain ⟨q, -, rfl⟩ := hx
      exact plasmaSq_nonneg q
    · exact List.mem_map_of_mem hp
  have h : 0 < plasmaSq p := by unfold plasmaSq; rw [if_pos ⟨h2, h3⟩]; positivity
  linarith

/-- `(x i_l)'/i_l` at `x`: the value of `id` with exact Bessel functions -/
noncomputable def idX (l : ℕ) (x : ℝ) : ℝ := -l + x * (sphI (l - 1) x / sphI l x)

theorem idT_exact {l : ℕ} (hl : 1 ≤ l) {x : ℝ} (hx : 0 < x) : idT l x (exactBes l x) = idX l x := by
  unfold idT idX; rw [exactBes_i hl hx]

theorem idX_gt {l : ℕ} (hl : 1 ≤ l) {x : ℝ} (hx : 0 < x) : (l : ℝ) + 1 < idX l x := by
  obtain ⟨l, rfl⟩ := Nat.exists_eq_add_of_le' hl
  have := sphI_ratio_gt l hx
  unfold idX
  simp only [Nat.add_sub_cancel]
  push_cast
  linarith

theorem idX_strictMono {l : ℕ} (hl : 1 ≤ l) {x y : ℝ} (hx : 0 < x) (hxy : x < y) : idX l x < idX l y := by
  obtain ⟨l, rfl⟩ := Nat.exists_eq_add_of_le' hl
  have h : x * (sphI l x / sphI (l + 1) x) < y * (sphI l y / sphI (l + 1) y) :=
    sphI_ratio_strictMono l hx (hx.trans hxy : (0 : ℝ) < y) hxy
  unfold idX
  simp only [Nat.add_sub_cancel]
  linarith

theorem idX_cont {l : ℕ} (hl : 1 ≤ l) {x : ℝ} (hx : 0 < x) : ContinuousAt (idX l) x := by
  obtain ⟨l, rfl⟩ := Nat.exists_eq_add_of_le' hl
  have := (sphI_ratio_deriv l hx).continuousAt
  exact this.const_add _

/-- C45: the true low-frequency limit for any plasma sphere, magnetic or not: the Bessel functions are taken at
`R √(w² µ)`, `w` the effective plasma wavenumber and `µ` the static permeability. -/
theorem C45_true_limit {l : ℕ} (hl : 1 ≤ l) {m1 m2 : Material} (hP : m1.Plasma) (h1 : m1.Physical) (hd2 : m2.Dielectric)
    (h2 : m2.Physical) {R : ℝ} (hR : 0 < R) :
    MieLimit exactBes m1 m2 l R
      ⟨(-1) ^ l * ((m2.muV 0 * idX l (R * Real.sqrt (m1.wSq * m1.muV 0)) - m1.muV 0 * (l + 1)) /
        (m2.muV 0 * idX l (R * Real.sqrt (m1.wSq * m1.muV 0)) + m1.muV 0 * l)),
      (-1) ^ l * (-(l + 1) / l), -Real.log (2 * l + 1) - 2 * ln2dbl l⟩ := by
  have hm1 : m1.cls ≠ .pec := by rw [hP.cls]; simp
  have mu1 := muV_pos h1 le_rfl
  have hx0 : 0 < R * Real.sqrt (m1.wSq * m1.muV 0) := mul_pos hR (Real.sqrt_pos.2 (mul_pos (wSq_pos hP) mu1))
  have hx := arg_tendsto hm1 h1 (R := R) (sq_eps_lorentz hP.cls h1)
  have hD : Tendsto (fun k => idT l (k * R * (Medium.mk (m1.epsV k) (m1.muV k)).n)
      (exactBes l (k * R * (Medium.mk (m1.epsV k) (m1.muV k)).n))) (𝓝[>] 0)
      (𝓝 (idX l (R * Real.sqrt (m1.wSq * m1.muV 0)))) := by
    refine ((idX_cont hl hx0).tendsto.comp hx).congr' ?_
    filter_upwards [self_mem_nhdsWithin] with k hk
    rw [idT_exact hl (arg_pos hm1 h1 hR hk)]
    rfl
  obtain ⟨e0, he, he0, hlim⟩ := dielectric_static hd2 h2
  obtain ⟨p, hp, hp1, hp2, hp3⟩ := hP.free
  have hinv := inv_eps_lorentz hP.cls h1 ⟨p, hp, hp1, hp2⟩
  have hs : Tendsto (fun k => m2.epsV k / m1.epsV k) (𝓝[>] 0) (𝓝 0) := by
    have := hlim.mul hinv
    rw [mul_zero] at this
    refine this.congr ?_
    intro k; ring
  have l0 : (0 : ℝ) < l := by exact_mod_cast hl
  have hDp : 0 < idX l (R * Real.sqrt (m1.wSq * m1.muV 0)) := lt_trans (by positivity) (idX_gt hl hx0)
  have key := mie_limit_core hl (C42_exact_table hl) (exactBes_low hl) hm1 h1 hd2 h2 hR hDp le_rfl hD hs
  rw [zero_mul, zero_sub, zero_add] at key
  exact key

/-- what the code computes for a plasma sphere -/
theorem mieK0_plasma {frac : ℝ → ℝ → ℝ} {m1 m2 : Material} (hP : m1.Plasma) (h1 : m1.Physical) (hd2 : m2.Dielectric)
    (h2 : m2.Physical) {l : ℕ} (hl : 1 ≤ l) {R w D : ℝ} (hw : m1.firstWp = .ok w)
    (hf : -l + w * R / omegaNorm * frac (w * R / omegaNorm) (l - 0.5) = D) (hD : 0 < D) :
    mieK0 frac m1 m2 l R = .ok
      ⟨(-1) ^ l * ((m2.muV 0 * D - m1.muV 0 * (l + 1)) / (m2.muV 0 * D + m1.muV 0 * l)),
        (-1) ^ l * (-(l + 1) / l), -Real.log (2 * l + 1) - 2 * ln2dbl l⟩ := by
  obtain ⟨e0, he, he0, hlim⟩ := dielectric_static hd2 h2
  have mu1 := muV_pos h1 le_rfl
  have mu2 := muV_pos h2 le_rfl
  have l0 : (0 : ℝ) < l := by exact_mod_cast hl
  have hsf : m1.sigmaFinite = false := by
    unfold Material.sigmaFinite
    rw [hP.cls]
    exact (C58_sigma_finite_iff _ fun p hp => (h1.osc p hp).2).2 hP.free
  have ho : omegaNorm = 2.998e14 := by unfold omegaNorm; norm_num
  rw [mieK0_start hd2 h2 he hl, hP.cls]
  simp only
  rw [mu_val h1 le_rfl, ok_bind, hsf, hw]
  simp only [Bool.false_eq_true, not_false_eq_true, if_true]
  rw [← ho, hf, cdiv_ok (by positivity), ok_bind]
  congr 2
  · rw [add_comm (m1.muV 0 * l)]
  · rw [neg_div]; ring

/-- `m1` is a plasma whose undamped zero-frequency oscillator is the first of the list and the only one. -/
structure Material.FirstPlasma (M : Material) (w : ℝ) : Prop where
  cls : M.cls = .lorentz
  pos : 0 < w
  list : ∃ rest, M.e = ⟨w, 0, 0⟩ :: rest ∧ ∀ p ∈ rest, p.wP = 0 ∨ p.wR ≠ 0 ∨ p.gamma ≠ 0

theorem firstPlasma_facts {M : Material} {w : ℝ} (h : M.FirstPlasma w) :
    M.Plasma ∧ M.firstWp = .ok w ∧ M.wSq = (w / omegaNorm) ^ 2 := by
  obtain ⟨rest, he, hr⟩ := h.list
  refine ⟨⟨h.cls, ⟨w, 0, 0⟩, by simp [he], h.pos.ne', rfl, rfl⟩, ?_, ?_⟩
  · unfold Material.firstWp; rw [h.cls, he]
  · unfold Material.wSq
    rw [he, List.map_cons, List.sum_cons]
    have h0 : (rest.map plasmaSq).sum = 0 := by
      apply List.sum_eq_zero
      intro x hx
      rw [List.mem_map] at hx
      obtain ⟨p, hp, rfl⟩ := hx
      unfold plasmaSq
      split_ifs with hc
      · rcases hr p hp with h1 | h1 | h1
        · rw [h1]; simp
        · exact absurd hc.1 h1
        · exact absurd hc.2 h1
      · rfl
    rw [h0, add_zero]
    unfold plasmaSq
    rw [if_pos ⟨rfl, rfl⟩]

/-- the continued fraction is evaluated exactly -/
def ExactFrac (frac : ℝ → ℝ → ℝ) (l : ℕ) : Prop := ∀ x, 0 < x → frac x (l - 0.5) = sphI (l - 1) x / sphI l x

/-- C45 (partial: non-magnetic sphere, the plasma oscillator listed first): `mie_k0` is the low-frequency limit. -/
theorem C45_plasma_partial {l : ℕ} (hl : 1 ≤ l) {frac : ℝ → ℝ → ℝ} (hfr : ExactFrac frac l) {m1 m2 : Material} {w : ℝ}
    (hP : m1.FirstPlasma w) (h1 : m1.Physical) (hmu : m1.muV 0 = 1) (hd2 : m2.Dielectric) (h2 : m2.Physical) {R : ℝ}
    (hR : 0 < R) : ∃ c, mieK0 frac m1 m2 l R = .ok c ∧ MieLimit exactBes m1 m2 l R c := by
  obtain ⟨hpl, hw, hsq⟩ := firstPlasma_facts hP
  have ho := omegaNorm_pos
  have hx0 : 0 < w * R / omegaNorm := div_pos (mul_pos hP.pos hR) ho
  have l0 : (0 : ℝ) < l := by exact_mod_cast hl
  have hD : -(l : ℝ) + w * R / omegaNorm * frac (w * R / omegaNorm) (l - 0.5) = idX l (w * R / omegaNorm) := by
    rw [hfr _ hx0]; rfl
  refine ⟨_, mieK0_plasma hpl h1 hd2 h2 hl hw hD (lt_trans (by positivity) (idX_gt hl hx0)), ?_⟩
  have key := C45_true_limit hl hpl h1 hd2 h2 hR
  have e : R * Real.sqrt (m1.wSq * m1.muV 0) = w * R / omegaNorm := by
    rw [hsq, hmu, mul_one, Real.sqrt_sq (div_pos hP.pos ho).le]; ring
  rw [e] at key
  exact key

theorem mieLimit_unique {T : BesTable} {m1 m2 : Material} {l : ℕ} {R : ℝ} {c c' : Mie} (h : MieLimit T m1 m2 l R c)
    (h' : MieLimit T m1 m2 l R c') : c.TE * Real.exp c.ln = c'.TE * Real.exp c'.ln ∧
      c.TM * Real.exp c.ln = c'.TM * Real.exp c'.ln := by
  obtain ⟨e, m, v, he, hm, -, hv, h1, h2⟩ := h
  obtain ⟨e', m', v', he', hm', -, hv', h1', h2'⟩ := h'
  rw [he] at he'; rw [hm] at hm'
  have he' := Except.ok.inj he'
  have hm' := Except.ok.inj hm'
  subst he' hm'
  have hvv : ∀ k, 0 < k → v k = v' k := by
    intro k hk
    have := hv k hk
    rw [hv' k hk] at this
    exact (Except.ok.inj this).symm
  constructor
  · refine tendsto_nhds_unique h1 (h1'.congr' ?_)
    filter_upwards [self_mem_nhdsWithin] with k hk
    rw [hvv k hk]
  · refine tendsto_nhds_unique h2 (h2'.congr' ?_)
    filter_upwards [self_mem_nhdsWithin] with k hk
    rw [hvv k hk]

theorem te_injective {m a l D D' : ℝ} (hm : 0 < m) (ha : 0 < a) (hl : 0 < l) (hD : 0 < D) (hD' : 0 < D')
    (h : (m * D - a * (l + 1)) / (m * D + a * l) = (m * D' - a * (l + 1)) / (m * D' + a * l)) : D = D' := by
  have d1 : 0 < m * D + a * l := by positivity
  have d2 : 0 < m * D' + a * l := by positivity
  rw [div_eq_div_iff d1.ne' d2.ne'] at h
  have : (m * a * (2 * l + 1)) * (D - D') = 0 := by nlinarith
  rcases mul_eq_zero.1 this with h | h
  · have : 0 < m * a * (2 * l + 1) := by positivity
    linarith
  · linarith

/-- general form of the refutations: the code evaluates the Bessel functions at the wrong argument -/
theorem plasma_wrong_arg {l : ℕ} (hl : 1 ≤ l) {frac : ℝ → ℝ → ℝ} (hfr : ExactFrac frac l) {m1 m2 : Material} {w : ℝ}
    (hP : m1.Plasma) (h1 : m1.Physical) (hw : m1.firstWp = .ok w) (hw0 : 0 < w) (hd2 : m2.Dielectric) (h2 : m2.Physical)
    {R : ℝ} (hR : 0 < R) (hne : w * R / omegaNorm ≠ R * Real.sqrt (m1.wSq * m1.muV 0)) :
    ∃ c, mieK0 frac m1 m2 l R = .ok c ∧ ¬ MieLimit exactBes m1 m2 l R c := by
  have ho := omegaNorm_pos
  have hx0 : 0 < w * R / omegaNorm := div_pos (mul_pos hw0 hR) ho
  have mu1 := muV_pos h1 le_rfl
  have mu2 := muV_pos h2 le_rfl
  have hx1 : 0 < R * Real.sqrt (m1.wSq * m1.muV 0) := mul_pos hR (Real.sqrt_pos.2 (mul_pos (wSq_pos hP) mu1))
  have l0 : (0 : ℝ) < l := by exact_mod_cast hl
  have hD : -(l : ℝ) + w * R / omegaNorm * frac (w * R / omegaNorm) (l - 0.5) = idX l (w * R / omegaNorm) := by
    rw [hfr _ hx0]; rfl
  have hD0 := lt_trans (by positivity) (idX_gt hl hx0)
  have hD1 := lt_trans (by positivity) (idX_gt hl hx1)
  refine ⟨_, mieK0_plasma hP h1 hd2 h2 hl hw hD hD0, ?_⟩
  intro hlim
  have h := (mieLimit_unique hlim (C45_true_limit hl hP h1 hd2 h2 hR)).1
  have h := mul_right_cancel₀ (Real.exp_ne_zero _) h
  have h := mul_left_cancel₀ (pow_ne_zero l (by norm_num : (-1 : ℝ) ≠ 0)) h
  have h := te_injective mu2 mu1 l0 hD0 hD1 h
  rcases lt_or_gt_of_ne hne with hlt | hlt
  · exact (idX_strictMono hl hx0 hlt).ne h
  · exact (idX_strictMono hl hx1 hlt).ne' h

/-- C45 refuted for magnetic plasma spheres: for every order, radius, plasma frequency and static permeability
`µ ≠ 1`, with an exact continued fraction, the value of `mie_k0` is not the low-frequency limit. -/
theorem C45_magnetic_refuted {l : ℕ} (hl : 1 ≤ l) {frac : ℝ → ℝ → ℝ} (hfr : ExactFrac frac l) {m1 m2 : Material} {w : ℝ}
    (hP : m1.FirstPlasma w) (h1 : m1.Physical) (hmu : m1.muV 0 ≠ 1) (hd2 : m2.Dielectric) (h2 : m2.Physical) {R : ℝ}
    (hR : 0 < R) : ∃ c, mieK0 frac m1 m2 l R = .ok c ∧ ¬ MieLimit exactBes m1 m2 l R c := by
  obtain ⟨hpl, hw, hsq⟩ := firstPlasma_facts hP
  have ho := omegaNorm_pos
  have mu1 := muV_pos h1 le_rfl
  refine plasma_wrong_arg hl hfr hpl h1 hw hP.pos hd2 h2 hR ?_
  rw [hsq, Real.sqrt_mul (sq_nonneg _), Real.sqrt_sq (div_pos hP.pos ho).le]
  intro h
  have hwR : 0 < w * R / omegaNorm := div_pos (mul_pos hP.pos hR) ho
  have h' : w * R / omegaNorm * Real.sqrt (m1.muV 0) = w * R / omegaNorm * 1 := by
    rw [mul_one]; conv_rhs => rw [h]
    ring
  have h'' := mul_left_cancel₀ hwR.ne' h'
  rw [Real.sqrt_eq_one] at h''
  exact hmu h''

/-- C45 refuted for a plasma oscillator that is not the first of the list: the code takes the first plasma
frequency, whatever the oscillator is. -/
theorem C45_order_refuted {l : ℕ} (hl : 1 ≤ l) {frac : ℝ → ℝ → ℝ} (hfr : ExactFrac frac l) {m2 : Material} {w w1 wR : ℝ}
    (hw : 0 < w) (hw1 : 0 < w1) (hne : w1 ≠ w) (hwR : 0 < wR) (hd2 : m2.Dielectric) (h2 : m2.Physical) {R : ℝ}
    (hR : 0 < R) : ∃ c, mieK0 frac ⟨.lorentz, [⟨w1, wR, 0⟩, ⟨w, 0, 0⟩], none⟩ m2 l R = .ok c ∧
      ¬ MieLimit exactBes ⟨.lorentz, [⟨w1, wR, 0⟩, ⟨w, 0, 0⟩], none⟩ m2 l R c := by
  have ho := omegaNorm_pos
  refine plasma_wrong_arg hl hfr (w := w1) ⟨rfl, ⟨w, 0, 0⟩, by simp, hw.ne', rfl, rfl⟩ ⟨?_, by simp, by simp⟩ rfl hw1 hd2 h2 hR ?_
  · intro p hp
    simp only [List.mem_cons, List.not_mem_nil, or_false] at hp
    rcases hp with rfl | rfl
    · exact ⟨hwR.le, le_rfl⟩
    · exact ⟨le_rfl, le_rfl⟩
  · have e : (Material.mk .lorentz [⟨w1, wR, 0⟩, ⟨w, 0, 0⟩] none).wSq = (w / omegaNorm) ^ 2 := by
      unfold Material.wSq
      simp [plasmaSq, hwR.ne']
    rw [e, muV_nonmag rfl, mul_one, Real.sqrt_sq (div_pos hw ho).le]
    intro h
    apply hne
    have hR' := hR.ne'
    have ho' := ho.ne'
    field_simp at h
    linarith

/-- C45 (partial: the truncated continued fraction of the code): for a non-magnetic plasma sphere in a non-magnetic
medium the TE coefficient deviates from the limit by less than `w R |f - i_{l-1}/i_l| / (2l+1)`, and the TM coefficient
agrees. -/
theorem C45_truncated_partial {l : ℕ} (hl : 1 ≤ l) (N : ℕ) (hN : 1 ≤ N) {m1 m2 : Material} {w : ℝ}
    (hP : m1.FirstPlasma w) (h1 : m1.Physical) (hmu : m1.muV 0 = 1) (hd2 : m2.Dielectric) (h2 : m2.Physical)
    (hmu2 : m2.muV 0 = 1) {R : ℝ} (hR : 0 < R) :
    ∃ c c', mieK0 (fnu1 (2 * N)) m1 m2 l R = .ok c ∧ MieLimit exactBes m1 m2 l R c' ∧ c.TM = c'.TM ∧ c.ln = c'.ln ∧
      |c.TE - c'.TE| ≤ w * R / omegaNorm *
        (fnu1 (2 * N) (w * R / omegaNorm) (l - 0.5) - sphI (l - 1) (w * R / omegaNorm) / sphI l (w * R / omegaNorm)) /
          (2 * l + 1) := by
  obtain ⟨hpl, hw, hsq⟩ := firstPlasma_facts hP
  have ho := omegaNorm_pos
  have hx0 : 0 < w * R / omegaNorm := div_pos (mul_pos hP.pos hR) ho
  have l0 : (0 : ℝ) < l := by exact_mod_cast hl
  obtain ⟨M, rfl⟩ := Nat.exists_eq_add_of_le' hN
  set x := w * R / omegaNorm with hx
  have hb : sphI (l - 1) x / sphI l x < fnu1 (2 * (M + 1)) x (l - 0.5) := by
    obtain ⟨l, rfl⟩ := Nat.exists_eq_add_of_le' hl
    have := (fnu1_bounds l hx0 M).1
    have e : ((l + 1 : ℕ) : ℝ) - 0.5 = l + 0.5 := by push_cast; norm_num; ring
    rw [e]
    exact this
  set f := fnu1 (2 * (M + 1)) x (l - 0.5) with hf
  have hD0 := idX_gt hl hx0
  set D := idX l x with hDd
  have hDe : -(l : ℝ) + x * f = D + x * (f - sphI (l - 1) x / sphI l x) := by rw [hDd, idX]; ring
  set δ := x * (f - sphI (l - 1) x / sphI l x) with hδ
  have hδ0 : 0 < δ := mul_pos hx0 (by linarith)
  have key := C45_true_limit hl hpl h1 hd2 h2 hR
  have e : R * Real.sqrt (m1.wSq * m1.muV 0) = x := by
    rw [hsq, hmu, mul_one, Real.sqrt_sq (div_pos hP.pos ho).le, hx]; ring
  rw [e] at key
  refine ⟨_, _, mieK0_plasma hpl h1 hd2 h2 hl hw hDe (by linarith), key, rfl, rfl, ?_⟩
  simp only
  rw [hmu, hmu2, ← mul_sub, abs_mul, abs_pow, abs_neg, abs_one, one_pow, one_mul]
  simp only [one_mul]
  rw [← hDd]
  have d1 : 0 < D + l := by linarith
  have d2 : 0 < D + δ + l := by linarith
  have e2 : (D + δ - (l + 1)) / (D + δ + l) - (D - (l + 1)) / (D + l) = (2 * l + 1) * δ / ((D + δ + l) * (D + l)) := by
    field_simp; ring
  rw [e2, abs_of_nonneg (by positivity), div_le_div_iff₀ (by positivity) (by positivity)]
  have : (2 * (l : ℝ) + 1) * (2 * l + 1) ≤ (D + δ + l) * (D + l) := by
    apply mul_le_mul <;> linarith
  nlinarith

/-- The plasma model of gold, with and without magnetic response, meets the hypotheses. -/
example : (Material.mk .lorentz eGoldplasma none).FirstPlasma 1.37e16 ∧ (Material.mk .lorentz eGoldplasma none).Physical ∧
    (Material.mk .lorentz eGoldplasma none).muV 0 = 1 ∧ (Material.mk .lorentz eGoldplasma (some (4, 1e9))).FirstPlasma 1.37e16 ∧
    (Material.mk .lorentz eGoldplasma (some (4, 1e9))).Physical ∧
    (Material.mk .lorentz eGoldplasma (some (4, 1e9))).muV 0 ≠ 1 := by
  refine ⟨⟨rfl, by norm_num, [], rfl, by simp⟩, ⟨by norm_num [eGoldplasma], by simp, by simp⟩, muV_nonmag rfl 0,
    ⟨rfl, by norm_num, [], rfl, by simp⟩, ⟨by norm_num [eGoldplasma], by norm_num, by simp⟩, ?_⟩
  unfold Material.muV Spec.debyeMu
  norm_num

/-- An exact continued fraction exists. -/
example (l : ℕ) : ∃ frac, ExactFrac frac l := ⟨fun x _ => sphI (l - 1) x / sphI l x, fun _ _ => rfl⟩

end CasSph
