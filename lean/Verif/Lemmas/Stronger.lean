import Verif.Lemmas.PairGramK0

/-! # Reflection amplitudes grow with the contrast and with the radius -/

namespace CasSph

open Spec Filter Topology Matrix Set

/-! ## Radial functions -/

theorem xI_deriv2 {l : ℕ} (hl : 1 ≤ l) {x : ℝ} (hx : 0 < x) :
    HasDerivAt (fun y => idX l y * sphI l y) (sphI l x * (x + l * (l + 1) / x)) x := by
  have h : HasDerivAt (fun x => x * sphI (l - 1) x - l * sphI l x) (sphI l x * (x + l * (l + 1) / x)) x := by
    refine (((hasDerivAt_id x).mul (sphI_deriv (l - 1) hx)).sub ((sphI_deriv l hx).const_mul (l : ℝ))).congr_deriv ?_
    obtain ⟨l, rfl⟩ := Nat.exists_eq_add_of_le' hl
    have := sphI_rec l hx.ne'
    simp only [Nat.add_sub_cancel, id]
    rw [this]
    push_cast
    field_simp
    ring
  refine h.congr_of_eventuallyEq ?_
  filter_upwards [eventually_gt_nhds hx] with y hy
  exact xI_eq hy

theorem xK_deriv2 {l : ℕ} (hl : 1 ≤ l) {x : ℝ} (hx : 0 < x) :
    HasDerivAt (fun y => kdX l y * sphK l y) (sphK l x * (x + l * (l + 1) / x)) x := by
  have h : HasDerivAt (fun x => -(x * sphK (l - 1) x) - l * sphK l x) (sphK l x * (x + l * (l + 1) / x)) x := by
    refine (((hasDerivAt_id x).mul (sphK_deriv (l - 1) hx)).neg.sub ((sphK_deriv l hx).const_mul (l : ℝ))).congr_deriv ?_
    obtain ⟨l, rfl⟩ := Nat.exists_eq_add_of_le' hl
    have := sphK_rec l hx.ne'
    simp only [Nat.add_sub_cancel, id]
    rw [this]
    push_cast
    field_simp
    ring
  refine h.congr_of_eventuallyEq ?_
  filter_upwards [eventually_gt_nhds hx] with y hy
  exact xK_eq hy

/-- `q r i_l(q r)` and its derivative -/
noncomputable def rI (l : ℕ) (q r : ℝ) : ℝ := q * r * sphI l (q * r)
noncomputable def rI1 (l : ℕ) (q r : ℝ) : ℝ := q * (idX l (q * r) * sphI l (q * r))
/-- `q r k_l(q r)` and its derivative -/
noncomputable def rK (l : ℕ) (q r : ℝ) : ℝ := q * r * sphK l (q * r)
noncomputable def rK1 (l : ℕ) (q r : ℝ) : ℝ := q * (kdX l (q * r) * sphK l (q * r))

theorem rI_deriv {l : ℕ} (hl : 1 ≤ l) {q r : ℝ} (hq : 0 < q) (hr : 0 < r) :
    HasDerivAt (rI l q) (rI1 l q r) r ∧ HasDerivAt (rI1 l q) ((q ^ 2 + l * (l + 1) / r ^ 2) * rI l q r) r := by
  have hx := mul_pos hq hr
  have hs : HasDerivAt (fun r => q * r) q r := by simpa using (hasDerivAt_id r).const_mul q
  constructor
  · have := (xI_deriv hl hx).comp r hs
    refine this.congr_deriv ?_
    unfold rI1; ring
  · have := ((xI_deriv2 hl hx).comp r hs).const_mul q
    refine this.congr_deriv ?_
    unfold rI; field_simp

theorem rK_deriv {l : ℕ} (hl : 1 ≤ l) {q r : ℝ} (hq : 0 < q) (hr : 0 < r) :
    HasDerivAt (rK l q) (rK1 l q r) r ∧ HasDerivAt (rK1 l q) ((q ^ 2 + l * (l + 1) / r ^ 2) * rK l q r) r := by
  have hx := mul_pos hq hr
  have hs : HasDerivAt (fun r => q * r) q r := by simpa using (hasDerivAt_id r).const_mul q
  constructor
  · have := (xK_deriv hl hx).comp r hs
    refine this.congr_deriv ?_
    unfold rK1; ring
  · have := ((xK_deriv2 hl hx).comp r hs).const_mul q
    refine this.congr_deriv ?_
    unfold rK; field_simp

/-- Reflection coefficient of a sphere of radius `r`, from the inner function `rI l p` and the outer ones `rI l q`, `rK l q`. -/
noncomputable def refl (l : ℕ) (u v p q r : ℝ) : ℝ :=
  (u * rI1 l p r * rI l q r - v * rI l p r * rI1 l q r) / (u * rI1 l p r * rK l q r - v * rI l p r * rK1 l q r)

theorem refl_den {l : ℕ} (hl : 1 ≤ l) {u v p q r : ℝ} (hu : 0 < u) (hv : 0 < v) (hp : 0 < p) (hq : 0 < q) (hr : 0 < r) :
    0 < u * rI1 l p r * rK l q r - v * rI l p r * rK1 l q r := by
  have a1 := idX_pos hl (mul_pos hp hr)
  have a2 := sphI_pos l (mul_pos hp hr)
  have a3 := sphK_pos l (mul_pos hq hr)
  have a4 := neg_pos.mpr (kdX_neg hl (mul_pos hq hr))
  have e : u * rI1 l p r * rK l q r - v * rI l p r * rK1 l q r =
      u * (p * (idX l (p * r) * sphI l (p * r))) * (q * r * sphK l (q * r)) + v * (p * r * sphI l (p * r)) * (q * (-kdX l (q * r) * sphK l (q * r))) := by
    unfold rI rI1 rK rK1; ring
  rw [e]
  positivity

/-- Its derivative with respect to the radius: a sum of squares with weights that have a sign. -/
theorem refl_deriv {l : ℕ} (hl : 1 ≤ l) {u v p q r : ℝ} (hu : 0 < u) (hv : 0 < v) (hp : 0 < p) (hq : 0 < q) (hr : 0 < r) :
    ∃ c, 0 ≤ c ∧ HasDerivAt (refl l u v p q) (c * ((u - v) * u * rI1 l p r ^ 2 +
      (u * (p ^ 2 + l * (l + 1) / r ^ 2) - v * (q ^ 2 + l * (l + 1) / r ^ 2)) * v * rI l p r ^ 2)) r := by
  obtain ⟨a1, a2⟩ := rI_deriv hl hp hr
  obtain ⟨b1, b2⟩ := rI_deriv hl hq hr
  obtain ⟨c1, c2⟩ := rK_deriv hl hq hr
  have hD := refl_den hl hu hv hp hq hr
  have hn := ((a2.const_mul u).mul b1).sub ((a1.const_mul v).mul b2)
  have hd := ((a2.const_mul u).mul c1).sub ((a1.const_mul v).mul c2)
  have h := hn.div hd hD.ne'
  refine ⟨(rI1 l q r * rK l q r - rI l q r * rK1 l q r) / (u * rI1 l p r * rK l q r - v * rI l p r * rK1 l q r) ^ 2, ?_, h.congr_deriv ?_⟩
  · refine div_nonneg ?_ (sq_nonneg _)
    have a1 := idX_pos hl (mul_pos hq hr)
    have a2 := sphI_pos l (mul_pos hq hr)
    have a3 := sphK_pos l (mul_pos hq hr)
    have a4 := neg_pos.mpr (kdX_neg hl (mul_pos hq hr))
    have e : rI1 l q r * rK l q r - rI l q r * rK1 l q r =
      q * (idX l (q * r) * sphI l (q * r)) * (q * r * sphK l (q * r)) + (q * r * sphI l (q * r)) * (q * (-kdX l (q * r) * sphK l (q * r))) := by
      unfold rI rI1 rK rK1; ring
    rw [e]
    positivity
  · have hD' := hD.ne'
    simp only [Pi.mul_apply, Pi.sub_apply]
    rw [div_mul_eq_mul_div, div_left_inj' (pow_ne_zero 2 hD')]
    ring

theorem refl_val {l : ℕ} (hl : 1 ≤ l) {u v p q r : ℝ} (hu : 0 < u) (hv : 0 < v) (hp : 0 < p) (hq : 0 < q) (hr : 0 < r) :
    refl l u v p q r = (u * idX l (p * r) - v * idX l (q * r)) / (u * idX l (p * r) - v * kdX l (q * r)) * (sphI l (q * r) / sphK l (q * r)) := by
  have a2 := sphI_pos l (mul_pos hp hr)
  have a3 := sphK_pos l (mul_pos hq hr)
  have a4 := neg_pos.mpr (kdX_neg hl (mul_pos hq hr))
  have a1 := idX_pos hl (mul_pos hp hr)
  have hd : u * idX l (p * r) - v * kdX l (q * r) ≠ 0 := by nlinarith
  have e1 : u * rI1 l p r * rI l q r - v * rI l p r * rI1 l q r =
      (p * q * r * sphI l (p * r)) * ((u * idX l (p * r) - v * idX l (q * r)) * sphI l (q * r)) := by unfold rI rI1; ring
  have e2 : u * rI1 l p r * rK l q r - v * rI l p r * rK1 l q r =
      (p * q * r * sphI l (p * r)) * ((u * idX l (p * r) - v * kdX l (q * r)) * sphK l (q * r)) := by unfold rI rI1 rK rK1; ring
  unfold refl
  rw [e1, e2, mul_div_mul_left _ _ (by positivity), mul_div_mul_comm]

/-- Monotonicity in the radius. -/
theorem refl_mono {l : ℕ} (hl : 1 ≤ l) {u v p q : ℝ} (hu : 0 < u) (hv : 0 < v) (hp : 0 < p) (hq : 0 < q) :
    (v ≤ u → (∀ r : ℝ, 0 < r → v * (q ^ 2 + l * (l + 1) / r ^ 2) ≤ u * (p ^ 2 + l * (l + 1) / r ^ 2)) → MonotoneOn (refl l u v p q) (Ioi 0)) ∧
    (u ≤ v → (∀ r : ℝ, 0 < r → u * (p ^ 2 + l * (l + 1) / r ^ 2) ≤ v * (q ^ 2 + l * (l + 1) / r ^ 2)) → AntitoneOn (refl l u v p q) (Ioi 0)) := by
  constructor
  · intro h1 h2
    refine monotoneOn_of_deriv_nonneg (convex_Ioi 0) (fun r hr => ?_) (fun r hr => ?_) fun r hr => ?_
    · obtain ⟨c, -, h⟩ := refl_deriv hl hu hv hp hq hr
      exact h.continuousAt.continuousWithinAt
    · rw [interior_Ioi] at hr
      obtain ⟨c, -, h⟩ := refl_deriv hl hu hv hp hq hr
      exact h.differentiableAt.differentiableWithinAt
    · rw [interior_Ioi] at hr
      obtain ⟨c, hc, h⟩ := refl_deriv hl hu hv hp hq hr
      rw [h.deriv]
      have := sub_nonneg.mpr h1
      have := sub_nonneg.mpr (h2 r hr)
      positivity
  · intro h1 h2
    refine antitoneOn_of_deriv_nonpos (convex_Ioi 0) (fun r hr => ?_) (fun r hr => ?_) fun r hr => ?_
    · obtain ⟨c, -, h⟩ := refl_deriv hl hu hv hp hq hr
      exact h.continuousAt.continuousWithinAt
    · rw [interior_Ioi] at hr
      obtain ⟨c, -, h⟩ := refl_deriv hl hu hv hp hq hr
      exact h.differentiableAt.differentiableWithinAt
    · rw [interior_Ioi] at hr
      obtain ⟨c, hc, h⟩ := refl_deriv hl hu hv hp hq hr
      rw [h.deriv]
      refine mul_nonpos_of_nonneg_of_nonpos hc ?_
      have e1 := sub_nonneg.mpr h1
      have e2 := sub_nonneg.mpr (h2 r hr)
      have : 0 ≤ (v - u) * u * rI1 l p r ^ 2 + (v * (q ^ 2 + l * (l + 1) / r ^ 2) - u * (p ^ 2 + l * (l + 1) / r ^ 2)) * v * rI l p r ^ 2 := by positivity
      linarith

/-! ## Amplitudes -/

/-- Size of the reflection coefficient (`false`: TE, `true`: TM). -/
noncomputable def ampV (m md : Material) (r k : ℝ) (P : Bool) (l : ℕ) : ℝ :=
  |(if P then (mieV m md r l k).TM else (mieV m md r l k).TE) * Real.exp (mieV m md r l k).ln|

theorem Amp.val {m md : Material} {k r σ : ℝ} {A : Bool → ℕ → ℝ} (h : Amp m md k r σ A) (hσ : σ = 1 ∨ σ = -1) (P : Bool) (i : ℕ) :
    A P i = ampV m md r k P (i + 1) := by
  obtain ⟨c, b, hc, -, hr⟩ := h
  obtain ⟨h0, h1, h2⟩ := hr i
  have hs : |σ * (-1) ^ (i + 1)| = 1 := by
    rw [abs_mul, abs_pow, abs_neg, abs_one, one_pow, mul_one]
    rcases hσ with e | e <;> rw [e] <;> norm_num
  unfold ampV
  rw [mieV_val (hc (i + 1) (by omega))]
  cases P with
  | false => simp only [Bool.false_eq_true, if_false]; rw [h1, abs_mul, hs, one_mul, abs_of_nonneg (h0 false).1]
  | true => simp only [if_true]; rw [h2, abs_neg, abs_mul, hs, one_mul, abs_of_nonneg (h0 true).1]

theorem argV_eq {m : Material} (h : m.b = none) (r k : ℝ) : argV m r k = k * Real.sqrt (m.epsV k) * r := by
  unfold argV Medium.n
  simp only
  rw [muV_of_none h, mul_one]
  ring

theorem ampV_diel {m md : Material} (hm : m.cls ≠ .pec) (hs : SphereMat m) (hd : MediumMat md) {r : ℝ} (hr : 0 < r) {l : ℕ} (hl : 1 ≤ l) {k : ℝ}
    (hk : 0 < k) (P : Bool) : ampV m md r k P l =
      Real.pi / 2 * |refl l (if P then md.epsV k else 1) (if P then m.epsV k else 1) (k * Real.sqrt (m.epsV k)) (k * Real.sqrt (md.epsV k)) r| := by
  have e1 := (medium_val hm hs.phys hk).2
  have e2 := (medium_val hd.cls hd.phys hk).2
  have x2 := argV_pos hd.cls hd.phys hr hk
  have i2 := sphI_pos l x2
  have k2 := sphK_pos l x2
  have hp : |(-1 : ℝ) ^ l * Real.pi * 0.5| = Real.pi / 2 := by
    rw [abs_mul, abs_mul, abs_pow, abs_neg, abs_one, one_pow, abs_of_pos Real.pi_pos, abs_of_pos (by norm_num)]; ring
  unfold ampV
  rw [mieV_diel hm hd.cls hs.phys hd.phys hr hl hk]
  simp only
  rw [Real.exp_sub, Real.exp_log i2, Real.exp_log k2]
  rw [argV_eq hs.mag, argV_eq hd.mag] at *
  cases P with
  | false =>
    simp only [Bool.false_eq_true, if_false]
    rw [muV_of_none hs.mag, muV_of_none hd.mag, refl_val hl one_pos one_pos (by positivity) (by positivity) hr, abs_mul, abs_mul, hp, abs_mul]
    ring
  | true =>
    simp only [if_true]
    rw [refl_val hl e2 e1 (by positivity) (by positivity) hr, abs_mul, abs_mul, hp, abs_mul]
    ring

theorem ampV_pec {m md : Material} (hm : m.cls = .pec) (hd : MediumMat md) {r : ℝ} (hr : 0 < r) (i : ℕ) {k : ℝ} (hk : 0 < k) (P : Bool) :
    ampV m md r k P (i + 1) = pecR P i (k * Real.sqrt (md.epsV k) * r) := by
  have x2 := argV_pos hd.cls hd.phys hr hk
  have i2 := sphI_pos (i + 1) x2
  have k2 := sphK_pos (i + 1) x2
  have hp : |(-1 : ℝ) ^ (i + 1) * Real.pi * 0.5| = Real.pi / 2 := by
    rw [abs_mul, abs_mul, abs_pow, abs_neg, abs_one, one_pow, abs_of_pos Real.pi_pos, abs_of_pos (by norm_num)]; ring
  unfold ampV
  rw [mieV_pec hm hd.cls hd.phys hr (by omega) hk]
  simp only
  rw [Real.exp_sub, Real.exp_log i2, Real.exp_log k2]
  rw [argV_eq hd.mag] at *
  cases P with
  | false =>
    simp only [Bool.false_eq_true, if_false]
    rw [abs_mul, hp, abs_of_pos (by positivity)]
    unfold pecR
    ring
  | true =>
    simp only [if_true]
    have a1 := idX_pos (l := i + 1) (by omega) x2
    have a4 := kdX_neg (l := i + 1) (by omega) x2
    rw [pecR_true i x2, abs_mul, abs_div, abs_mul, hp, abs_of_pos a1, abs_of_neg a4, abs_of_pos (by positivity)]
    ring

/-- A larger sphere of the same material reflects more. -/
theorem ampV_radius {m md : Material} (hs : SphereMat m) (hd : MediumMat md) {r r' : ℝ} (hr : 0 < r) (hrr : r ≤ r') (i : ℕ) {k : ℝ}
    (hk : 0 < k) (P : Bool) : ampV m md r k P (i + 1) ≤ ampV m md r' k P (i + 1) := by
  have hr' := hr.trans_le hrr
  have e2 := (medium_val hd.cls hd.phys hk).2
  by_cases hm : m.cls = .pec
  · rw [ampV_pec hm hd hr i hk, ampV_pec hm hd hr' i hk]
    have hρ : 0 < k * Real.sqrt (md.epsV k) * r' := by positivity
    have hq1 : r / r' ≤ 1 := (div_le_one hr').mpr hrr
    have h := pecR_scale P i (q := r / r') (by positivity) hq1 hρ
    rw [show r / r' * (k * Real.sqrt (md.epsV k) * r') = k * Real.sqrt (md.epsV k) * r by field_simp] at h
    refine h.trans (mul_le_of_le_one_left (pecR_pos P i hρ).le (mul_le_one₀ (pow_le_one₀ (by positivity) hq1) (Real.exp_pos _).le ?_))
    rw [Real.exp_le_one_iff]
    have : k * Real.sqrt (md.epsV k) * r ≤ k * Real.sqrt (md.epsV k) * r' := mul_le_mul_of_nonneg_left hrr (by positivity)
    linarith
  · have e1 := (medium_val hm hs.phys hk).2
    rw [ampV_diel hm hs hd hr (by omega) hk, ampV_diel hm hs hd hr' (by omega) hk]
    refine mul_le_mul_of_nonneg_left ?_ (by have := Real.pi_pos; positivity)
    set a := m.epsV k
    set b := md.epsV k
    have hp : 0 < k * Real.sqrt a := by positivity
    have hq : 0 < k * Real.sqrt b := by positivity
    have hl : 1 ≤ i + 1 := by omega
    have sa : (k * Real.sqrt a) ^ 2 = k ^ 2 * a := by rw [mul_pow, Real.sq_sqrt e1.le]
    have sb : (k * Real.sqrt b) ^ 2 = k ^ 2 * b := by rw [mul_pow, Real.sq_sqrt e2.le]
    have hu : 0 < (if P then b else 1) := by split_ifs <;> linarith
    have hv : 0 < (if P then a else 1) := by split_ifs <;> linarith
    have hmono := refl_mono hl hu hv hp hq
    rw [sa, sb] at hmono
    -- sign at `r`
    have hI := idX_pos hl (mul_pos hp hr)
    have hJ := idX_pos hl (mul_pos hq hr)
    have hK := kdX_neg hl (mul_pos hq hr)
    have hc : 0 ≤ sphI (i + 1) (k * Real.sqrt b * r) / sphK (i + 1) (k * Real.sqrt b * r) :=
      div_nonneg (sphI_pos _ (mul_pos hq hr)).le (sphK_pos _ (mul_pos hq hr)).le
    have hden : 0 < (if P then b else 1) * idX (i + 1) (k * Real.sqrt a * r) - (if P then a else 1) * kdX (i + 1) (k * Real.sqrt b * r) := by
      have := mul_pos hu hI
      have := mul_pos hv (neg_pos.mpr hK)
      linarith
    have hval := refl_val hl hu hv hp hq hr
    have pos : 0 ≤ (if P then b else 1) * idX (i + 1) (k * Real.sqrt a * r) - (if P then a else 1) * idX (i + 1) (k * Real.sqrt b * r) →
        0 ≤ refl (i + 1) (if P then b else 1) (if P then a else 1) (k * Real.sqrt a) (k * Real.sqrt b) r := by
      intro h; rw [hval]; exact mul_nonneg (div_nonneg h hden.le) hc
    have neg : (if P then b else 1) * idX (i + 1) (k * Real.sqrt a * r) - (if P then a else 1) * idX (i + 1) (k * Real.sqrt b * r) ≤ 0 →
        refl (i + 1) (if P then b else 1) (if P then a else 1) (k * Real.sqrt a) (k * Real.sqrt b) r ≤ 0 := by
      intro h; rw [hval]; exact mul_nonpos_of_nonpos_of_nonneg (div_nonpos_of_nonpos_of_nonneg h hden.le) hc
    have up : ∀ {x y : ℝ}, 0 ≤ x → x ≤ y → |x| ≤ |y| := fun h1 h2 => by rw [abs_of_nonneg h1, abs_of_nonneg (h1.trans h2)]; exact h2
    have dn : ∀ {x y : ℝ}, x ≤ 0 → y ≤ x → |x| ≤ |y| := fun h1 h2 => by rw [abs_of_nonpos h1, abs_of_nonpos (h2.trans h1)]; linarith
    have lt : ∀ {a b : ℝ}, 0 < a → a ≤ b → idX (i + 1) (k * Real.sqrt a * r) ≤ idX (i + 1) (k * Real.sqrt b * r) := by
      intro a b ha hab
      rcases hab.eq_or_lt with e | e
      · rw [e]
      · refine (idX_strictMono hl (by positivity) ?_).le
        have := Real.sqrt_lt_sqrt ha.le e
        gcongr
    have ls : ∀ {a b : ℝ}, 0 < a → a ≤ b → a * idX (i + 1) (k * Real.sqrt b * r) ≤ b * idX (i + 1) (k * Real.sqrt a * r) := by
      intro a b ha hab
      have hb := ha.trans_le hab
      rcases hab.eq_or_lt with e | e
      · rw [e]
      · have := idX_sq_anti hl (x := k * Real.sqrt a * r) (y := k * Real.sqrt b * r) (by positivity) (by have := Real.sqrt_lt_sqrt ha.le e; gcongr)
        rw [mul_pow, mul_pow, mul_pow, mul_pow, Real.sq_sqrt ha.le, Real.sq_sqrt hb.le, div_lt_div_iff₀ (by positivity) (by positivity)] at this
        have hkr : 0 < k ^ 2 * r ^ 2 := by positivity
        nlinarith
    cases P with
    | false =>
      simp only [Bool.false_eq_true, if_false, one_mul] at *
      rcases le_total a b with h | h
      · exact dn (neg (by linarith [lt e1 h])) ((hmono.2 le_rfl fun r _ => by gcongr) hr hr' hrr)
      · exact up (pos (by linarith [lt e2 h])) ((hmono.1 le_rfl fun r _ => by gcongr) hr hr' hrr)
    | true =>
      simp only [if_true] at *
      have hΛ : ∀ r : ℝ, 0 ≤ ((i + 1 : ℕ) : ℝ) * (((i + 1 : ℕ) : ℝ) + 1) / r ^ 2 := fun r => by positivity
      rcases le_total a b with h | h
      · refine up (pos (by linarith [ls e1 h])) ((hmono.1 h fun r _ => ?_) hr hr' hrr)
        have := mul_le_mul_of_nonneg_right h (hΛ r)
        nlinarith
      · refine dn (neg (by linarith [ls e2 h])) ((hmono.2 h fun r _ => ?_) hr hr' hrr)
        have := mul_le_mul_of_nonneg_right h (hΛ r)
        nlinarith

theorem ratio_contrast {x x' J K : ℝ} (hK : K < 0) (hx : 0 < x) (hx' : 0 < x') (hJ : 0 < J) (h : (J ≤ x ∧ x ≤ x') ∨ (x' ≤ x ∧ x ≤ J)) :
    |(x - J) / (x - K)| ≤ |(x' - J) / (x' - K)| := by
  have d : 0 < x - K := by linarith
  have d' : 0 < x' - K := by linarith
  rw [abs_div, abs_div, abs_of_pos d, abs_of_pos d', div_le_div_iff₀ d d']
  rcases h with ⟨h1, h2⟩ | ⟨h1, h2⟩
  · rw [abs_of_nonneg (by linarith), abs_of_nonneg (by linarith)]; nlinarith
  · rw [abs_of_nonpos (by linarith), abs_of_nonpos (by linarith)]; nlinarith

/-- `m'` differs from the medium at least as much as `m`: a perfect conductor, or a permittivity further away on the same side. -/
def MoreContrast (m m' md : Material) (k : ℝ) : Prop :=
  m'.cls = .pec ∨ (m.cls ≠ .pec ∧ m'.cls ≠ .pec ∧
    ((md.epsV k ≤ m.epsV k ∧ m.epsV k ≤ m'.epsV k) ∨ (m'.epsV k ≤ m.epsV k ∧ m.epsV k ≤ md.epsV k)))

/-- A sphere of a material with more contrast reflects more. -/
theorem ampV_contrast {m m' md : Material} (hs : SphereMat m) (hs' : SphereMat m') (hd : MediumMat md) {r : ℝ} (hr : 0 < r) (i : ℕ) {k : ℝ}
    (hk : 0 < k) (hc : MoreContrast m m' md k) (P : Bool) : ampV m md r k P (i + 1) ≤ ampV m' md r k P (i + 1) := by
  rcases hc with hc | ⟨hm, hm', hc⟩
  · obtain ⟨σ, hσ⟩ := dense_total hs hd hk
    obtain ⟨A, hA⟩ := amp_exists hs hd hk hr hσ
    rw [← hA.val hσ.sign, ampV_pec hc hd hr i hk]
    obtain ⟨c, b, -, hb, h⟩ := hA
    rw [(medium_val hd.cls hd.phys hk).1] at hb
    injection hb with hb
    have := ((h i).1 P).2
    rw [← hb] at this
    convert this using 2
    exact (argV_eq hd.mag r k).symm
  · have e1 := (medium_val hm hs.phys hk).2
    have e1' := (medium_val hm' hs'.phys hk).2
    have e2 := (medium_val hd.cls hd.phys hk).2
    rw [ampV_diel hm hs hd hr (by omega) hk, ampV_diel hm' hs' hd hr (by omega) hk]
    refine mul_le_mul_of_nonneg_left ?_ (by have := Real.pi_pos; positivity)
    set a := m.epsV k
    set a' := m'.epsV k
    set b := md.epsV k
    have hp : 0 < k * Real.sqrt a := by positivity
    have hp' : 0 < k * Real.sqrt a' := by positivity
    have hq : 0 < k * Real.sqrt b := by positivity
    have hl : 1 ≤ i + 1 := by omega
    have hI := idX_pos hl (mul_pos hp hr)
    have hI' := idX_pos hl (mul_pos hp' hr)
    have hJ := idX_pos hl (mul_pos hq hr)
    have hK := kdX_neg hl (mul_pos hq hr)
    have lt : ∀ {a b : ℝ}, 0 < a → a ≤ b → idX (i + 1) (k * Real.sqrt a * r) ≤ idX (i + 1) (k * Real.sqrt b * r) := by
      intro a b ha hab
      rcases hab.eq_or_lt with e | e
      · rw [e]
      · refine (idX_strictMono hl (by positivity) ?_).le
        have := Real.sqrt_lt_sqrt ha.le e
        gcongr
    have ls : ∀ {a b : ℝ}, 0 < a → a ≤ b → idX (i + 1) (k * Real.sqrt b * r) / b ≤ idX (i + 1) (k * Real.sqrt a * r) / a := by
      intro a b ha hab
      have hb := ha.trans_le hab
      rcases hab.eq_or_lt with e | e
      · rw [e]
      · have := idX_sq_anti hl (x := k * Real.sqrt a * r) (y := k * Real.sqrt b * r) (by positivity) (by have := Real.sqrt_lt_sqrt ha.le e; gcongr)
        rw [mul_pow, mul_pow, mul_pow, mul_pow, Real.sq_sqrt ha.le, Real.sq_sqrt hb.le, div_lt_div_iff₀ (by positivity) (by positivity)] at this
        rw [div_le_div_iff₀ hb ha]
        have hkr : 0 < k ^ 2 * r ^ 2 := by positivity
        nlinarith
    cases P with
    | false =>
      simp only [Bool.false_eq_true, if_false]
      rw [refl_val hl one_pos one_pos hp hq hr, refl_val hl one_pos one_pos hp' hq hr, abs_mul, abs_mul]
      simp only [one_mul]
      refine mul_le_mul_of_nonneg_right (ratio_contrast hK hI hI' hJ ?_) (abs_nonneg _)
      rcases hc with ⟨h1, h2⟩ | ⟨h1, h2⟩
      · exact .inl ⟨lt e2 h1, lt e1 h2⟩
      · exact .inr ⟨lt e1' h1, lt e1 h2⟩
    | true =>
      simp only [if_true]
      rw [refl_val hl e2 e1 hp hq hr, refl_val hl e2 e1' hp' hq hr, abs_mul, abs_mul]
      refine mul_le_mul_of_nonneg_right ?_ (abs_nonneg _)
      have key : ∀ {a I : ℝ}, 0 < a → (b * I - a * idX (i + 1) (k * Real.sqrt b * r)) / (b * I - a * kdX (i + 1) (k * Real.sqrt b * r)) =
          (b * (I / a) - idX (i + 1) (k * Real.sqrt b * r)) / (b * (I / a) - kdX (i + 1) (k * Real.sqrt b * r)) := by
        intro a I ha
        rw [← mul_div_mul_left _ (b * (I / a) - _) ha.ne']
        congr 1 <;> field_simp
      rw [key e1, key e1']
      have hb1 : b * (idX (i + 1) (k * Real.sqrt b * r) / b) = idX (i + 1) (k * Real.sqrt b * r) := by field_simp
      refine ratio_contrast hK (by positivity) (by positivity) hJ ?_
      rcases hc with ⟨h1, h2⟩ | ⟨h1, h2⟩
      · refine .inr ⟨mul_le_mul_of_nonneg_left (ls e1 h2) e2.le, ?_⟩
        have := mul_le_mul_of_nonneg_left (ls e2 h1) e2.le
        rwa [hb1] at this
      · refine .inl ⟨?_, mul_le_mul_of_nonneg_left (ls e1' h1) e2.le⟩
        have := mul_le_mul_of_nonneg_left (ls e1 h2) e2.le
        rwa [hb1] at this

/-- Both: more contrast and a larger radius. -/
theorem ampV_stronger {m m' md : Material} (hs : SphereMat m) (hs' : SphereMat m') (hd : MediumMat md) {r r' : ℝ} (hr : 0 < r) (hrr : r ≤ r') (i : ℕ) {k : ℝ}
    (hk : 0 < k) (hc : MoreContrast m m' md k) (P : Bool) : ampV m md r k P (i + 1) ≤ ampV m' md r' k P (i + 1) :=
  (ampV_contrast hs hs' hd hr i hk hc P).trans (ampV_radius hs' hd hr hrr i hk P)

end CasSph
