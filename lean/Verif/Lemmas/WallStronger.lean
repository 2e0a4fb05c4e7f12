import Verif.Lemmas.Stronger
import Verif.Lemmas.CavityCont

/-! # Reflection amplitudes of the wall of a cavity grow with the contrast and fall with the radius -/

namespace CasSph

open Spec Filter Topology Matrix Set

/-- Reflection coefficient of a wall of radius `r`, from the function `rK l p` in the wall and `rK l q`, `rI l q` inside. -/
noncomputable def reflW (l : ℕ) (u v p q r : ℝ) : ℝ :=
  (u * rK1 l p r * rK l q r - v * rK l p r * rK1 l q r) / (u * rK1 l p r * rI l q r - v * rK l p r * rI1 l q r)

section
variable {l : ℕ} {u v p q r : ℝ}

theorem reflW_den (hl : 1 ≤ l) (hu : 0 < u) (hv : 0 < v) (hp : 0 < p) (hq : 0 < q) (hr : 0 < r) :
    u * rK1 l p r * rI l q r - v * rK l p r * rI1 l q r < 0 := by
  have a1 := idX_pos hl (mul_pos hq hr)
  have a2 := sphI_pos l (mul_pos hq hr)
  have a3 := sphK_pos l (mul_pos hp hr)
  have a4 := neg_pos.mpr (kdX_neg hl (mul_pos hp hr))
  have e : u * rK1 l p r * rI l q r - v * rK l p r * rI1 l q r =
      -(u * (p * (-kdX l (p * r) * sphK l (p * r))) * (q * r * sphI l (q * r)) + v * (p * r * sphK l (p * r)) * (q * (idX l (q * r) * sphI l (q * r)))) := by
    unfold rI rI1 rK rK1; ring
  rw [e, neg_lt_zero]
  positivity

theorem reflW_deriv (hl : 1 ≤ l) (hu : 0 < u) (hv : 0 < v) (hp : 0 < p) (hq : 0 < q) (hr : 0 < r) :
    ∃ c, 0 ≤ c ∧ HasDerivAt (reflW l u v p q) (-(c * ((u - v) * u * rK1 l p r ^ 2 +
      (u * (p ^ 2 + l * (l + 1) / r ^ 2) - v * (q ^ 2 + l * (l + 1) / r ^ 2)) * v * rK l p r ^ 2))) r := by
  obtain ⟨a1, a2⟩ := rK_deriv hl hp hr
  obtain ⟨b1, b2⟩ := rK_deriv hl hq hr
  obtain ⟨c1, c2⟩ := rI_deriv hl hq hr
  have hD := reflW_den hl hu hv hp hq hr
  have hn := ((a2.const_mul u).mul b1).sub ((a1.const_mul v).mul b2)
  have hd := ((a2.const_mul u).mul c1).sub ((a1.const_mul v).mul c2)
  have h := hn.div hd hD.ne
  refine ⟨(rI1 l q r * rK l q r - rI l q r * rK1 l q r) / (u * rK1 l p r * rI l q r - v * rK l p r * rI1 l q r) ^ 2, ?_, h.congr_deriv ?_⟩
  · refine div_nonneg ?_ (sq_nonneg _)
    have a1 := idX_pos hl (mul_pos hq hr)
    have a2 := sphI_pos l (mul_pos hq hr)
    have a3 := sphK_pos l (mul_pos hq hr)
    have a4 := neg_pos.mpr (kdX_neg hl (mul_pos hq hr))
    have e : rI1 l q r * rK l q r - rI l q r * rK1 l q r =
      q * (idX l (q * r) * sphI l (q * r)) * (q * r * sphK l (q * r)) + (q * r * sphI l (q * r)) * (q * (-kdX l (q * r) * sphK l (q * r))) := by
      unfold rI rI1 rK rK1; ring
    rw [e]
    positivity
  · have hD' := hD.ne
    simp only [Pi.mul_apply, Pi.sub_apply]
    rw [div_mul_eq_mul_div, ← neg_div, div_left_inj' (pow_ne_zero 2 hD')]
    ring

theorem reflW_val (hl : 1 ≤ l) (hu : 0 < u) (hv : 0 < v) (hp : 0 < p) (hq : 0 < q) (hr : 0 < r) :
    reflW l u v p q r = (u * kdX l (p * r) - v * kdX l (q * r)) / (u * kdX l (p * r) - v * idX l (q * r)) * (sphK l (q * r) / sphI l (q * r)) := by
  have a2 := sphK_pos l (mul_pos hp hr)
  have e1 : u * rK1 l p r * rK l q r - v * rK l p r * rK1 l q r =
      (p * q * r * sphK l (p * r)) * ((u * kdX l (p * r) - v * kdX l (q * r)) * sphK l (q * r)) := by unfold rK rK1; ring
  have e2 : u * rK1 l p r * rI l q r - v * rK l p r * rI1 l q r =
      (p * q * r * sphK l (p * r)) * ((u * kdX l (p * r) - v * idX l (q * r)) * sphI l (q * r)) := by unfold rI rI1 rK rK1; ring
  unfold reflW
  rw [e1, e2, mul_div_mul_left _ _ (by positivity), mul_div_mul_comm]

/-- Monotonicity in the radius. -/
theorem reflW_mono (hl : 1 ≤ l) (hu : 0 < u) (hv : 0 < v) (hp : 0 < p) (hq : 0 < q) :
    (v ≤ u → (∀ r : ℝ, 0 < r → v * (q ^ 2 + l * (l + 1) / r ^ 2) ≤ u * (p ^ 2 + l * (l + 1) / r ^ 2)) → AntitoneOn (reflW l u v p q) (Ioi 0)) ∧
    (u ≤ v → (∀ r : ℝ, 0 < r → u * (p ^ 2 + l * (l + 1) / r ^ 2) ≤ v * (q ^ 2 + l * (l + 1) / r ^ 2)) → MonotoneOn (reflW l u v p q) (Ioi 0)) := by
  constructor
  · intro h1 h2
    refine antitoneOn_of_deriv_nonpos (convex_Ioi 0) (fun r hr => ?_) (fun r hr => ?_) fun r hr => ?_
    · obtain ⟨c, -, h⟩ := reflW_deriv hl hu hv hp hq hr
      exact h.continuousAt.continuousWithinAt
    · rw [interior_Ioi] at hr
      obtain ⟨c, -, h⟩ := reflW_deriv hl hu hv hp hq hr
      exact h.differentiableAt.differentiableWithinAt
    · rw [interior_Ioi] at hr
      obtain ⟨c, hc, h⟩ := reflW_deriv hl hu hv hp hq hr
      rw [h.deriv, neg_nonpos]
      have := sub_nonneg.mpr h1
      have := sub_nonneg.mpr (h2 r hr)
      positivity
  · intro h1 h2
    refine monotoneOn_of_deriv_nonneg (convex_Ioi 0) (fun r hr => ?_) (fun r hr => ?_) fun r hr => ?_
    · obtain ⟨c, -, h⟩ := reflW_deriv hl hu hv hp hq hr
      exact h.continuousAt.continuousWithinAt
    · rw [interior_Ioi] at hr
      obtain ⟨c, -, h⟩ := reflW_deriv hl hu hv hp hq hr
      exact h.differentiableAt.differentiableWithinAt
    · rw [interior_Ioi] at hr
      obtain ⟨c, hc, h⟩ := reflW_deriv hl hu hv hp hq hr
      rw [h.deriv, ← mul_neg]
      refine mul_nonneg hc ?_
      have e1 := sub_nonneg.mpr h1
      have e2 := sub_nonneg.mpr (h2 r hr)
      have : 0 ≤ (v - u) * u * rK1 l p r ^ 2 + (v * (q ^ 2 + l * (l + 1) / r ^ 2) - u * (p ^ 2 + l * (l + 1) / r ^ 2)) * v * rK l p r ^ 2 := by positivity
      linarith

end

/-! ## Amplitudes -/

/-- Size of the reflection coefficient of the wall (`false`: TE, `true`: TM). -/
noncomputable def ampW (m md : Material) (r k : ℝ) (P : Bool) (l : ℕ) : ℝ :=
  |(if P then (mieIntV md m r l k).TM else (mieIntV md m r l k).TE) * Real.exp (mieIntV md m r l k).ln|

theorem RefBy.val {c : MieCoef} {σ : ℝ} {bd A : Bool → ℕ → ℝ} (h : RefBy c σ bd A) (hσ : σ = 1 ∨ σ = -1) (P : Bool) (i : ℕ) :
    A P i = |(if P then c.TM (i + 1) else c.TE (i + 1)) * Real.exp (c.ln (i + 1))| := by
  obtain ⟨h0, h1, h2⟩ := h i
  have hs : |σ * (-1) ^ (i + 1)| = 1 := by
    rw [abs_mul, abs_pow, abs_neg, abs_one, one_pow, mul_one]
    rcases hσ with e | e <;> rw [e] <;> norm_num
  cases P with
  | false => simp only [Bool.false_eq_true, if_false]; rw [h1, abs_mul, hs, one_mul, abs_of_nonneg (h0 false).1]
  | true => simp only [if_true]; rw [h2, abs_neg, abs_mul, hs, one_mul, abs_of_nonneg (h0 true).1]

section
variable {m m' md : Material} {r r' k : ℝ} {l : ℕ}

theorem ampW_diel (hm : m.cls ≠ .pec) (hs : SphereMat m) (hd : MediumMat md) (hr : 0 < r) (hl : 1 ≤ l) (hk : 0 < k) (P : Bool) : ampW m md r k P l =
      2 / Real.pi * |reflW l (if P then md.epsV k else 1) (if P then m.epsV k else 1) (k * Real.sqrt (m.epsV k)) (k * Real.sqrt (md.epsV k)) r| := by
  have e1 := (medium_val hm hs.phys hk).2
  have e2 := (medium_val hd.cls hd.phys hk).2
  have x2 := argV_pos hd.cls hd.phys hr hk
  have i2 := sphI_pos l x2
  have k2 := sphK_pos l x2
  have hp : |(-1 : ℝ) ^ l * 2 / Real.pi| = 2 / Real.pi := by
    rw [abs_div, abs_mul, abs_pow, abs_neg, abs_one, one_pow, abs_of_pos Real.pi_pos, abs_of_pos (by norm_num), one_mul]
  have flip : ∀ a b c d : ℝ, |(a - b) / (c - d)| = |(b - a) / (d - c)| := fun a b c d => by
    rw [← neg_sub b a, ← neg_sub d c, neg_div_neg_eq]
  unfold ampW
  rw [mieIntV_diel hm hd.cls hs.phys hd.phys hr hl hk]
  simp only
  rw [Real.exp_sub, Real.exp_log i2, Real.exp_log k2]
  rw [argV_eq hs.mag, argV_eq hd.mag] at *
  cases P with
  | false =>
    simp only [Bool.false_eq_true, if_false]
    rw [muV_of_none hs.mag, muV_of_none hd.mag, reflW_val hl one_pos one_pos (by positivity) (by positivity) hr, abs_mul, abs_mul, hp, abs_mul, flip]
    ring
  | true =>
    simp only [if_true]
    rw [reflW_val hl e2 e1 (by positivity) (by positivity) hr, abs_mul, abs_mul, hp, abs_mul, flip]
    ring

theorem ampW_pec (hm : m.cls = .pec) (hd : MediumMat md) (hr : 0 < r) (i : ℕ) (hk : 0 < k) (P : Bool) :
    ampW m md r k P (i + 1) = cavR P i (k * Real.sqrt (md.epsV k) * r) := by
  have x2 := argV_pos hd.cls hd.phys hr hk
  have i2 := sphI_pos (i + 1) x2
  have k2 := sphK_pos (i + 1) x2
  have hp : |(-1 : ℝ) ^ (i + 1) * 2 / Real.pi| = 2 / Real.pi := by
    rw [abs_div, abs_mul, abs_pow, abs_neg, abs_one, one_pow, abs_of_pos Real.pi_pos, abs_of_pos (by norm_num), one_mul]
  unfold ampW
  rw [mieIntV_pec hm hd.cls hd.phys hr (by omega) hk]
  simp only
  rw [Real.exp_sub, Real.exp_log i2, Real.exp_log k2]
  rw [argV_eq hd.mag] at *
  cases P with
  | false =>
    simp only [Bool.false_eq_true, if_false]
    rw [abs_mul, hp, abs_of_pos (by positivity), cavR_false]
  | true =>
    simp only [if_true]
    have a1 := idX_pos (l := i + 1) (by omega) x2
    have a4 := kdX_neg (l := i + 1) (by omega) x2
    rw [cavR_true i x2, abs_mul, abs_mul, hp, abs_div, abs_of_pos a1, abs_of_neg a4, abs_of_pos (by positivity)]
    ring

/-- Comparison of the two logarithmic derivatives. -/
theorem kd_eps (hl : 1 ≤ l) (hk : 0 < k) (hr : 0 < r) {a b : ℝ} (ha : 0 < a) (hab : a ≤ b) :
    kdX l (k * Real.sqrt b * r) ≤ kdX l (k * Real.sqrt a * r) ∧ b * kdX l (k * Real.sqrt a * r) ≤ a * kdX l (k * Real.sqrt b * r) := by
  have := kd_num hl (c := k * r) (w := 1) (mul_pos hk hr) one_pos ha hab
  rw [mul_one, mul_one, mul_right_comm, mul_right_comm k r] at this
  exact this

/-- A wider cavity reflects less. -/
theorem ampW_radius (hs : SphereMat m) (hd : MediumMat md) (hr : 0 < r) (hrr : r ≤ r') (i : ℕ) (hk : 0 < k) (P : Bool) :
    ampW m md r' k P (i + 1) ≤ ampW m md r k P (i + 1) := by
  have hr' := hr.trans_le hrr
  have e2 := (medium_val hd.cls hd.phys hk).2
  by_cases hm : m.cls = .pec
  · have h := ampV_radius (m := m) hs hd hr hrr i hk P
    rw [ampV_pec hm hd hr i hk, ampV_pec hm hd hr' i hk] at h
    rw [ampW_pec hm hd hr i hk, ampW_pec hm hd hr' i hk]
    exact inv_anti₀ (pecR_pos P i (by positivity)) h
  · have e1 := (medium_val hm hs.phys hk).2
    rw [ampW_diel hm hs hd hr (by omega) hk, ampW_diel hm hs hd hr' (by omega) hk]
    refine mul_le_mul_of_nonneg_left ?_ (by have := Real.pi_pos; positivity)
    set a := m.epsV k
    set b := md.epsV k
    have hp : 0 < k * Real.sqrt a := by positivity
    have hq : 0 < k * Real.sqrt b := by positivity
    have hl : 1 ≤ i + 1 := by omega
    have sa : (k * Real.sqrt a) ^ 2 = k ^ 2 * a := by rw [mul_pow, Real.sq_sqrt e1.le]
    have sb : (k * Real.sqrt b) ^ 2 = k ^ 2 * b := by rw [mul_pow, Real.sq_sqrt e2.le]
    have hu : 0 < (if P then b else 1) := by split_ifs <;> linarith
    have hv : 0 < (if P then a else 1) := by split_ifs <;> linarith
    have hmono := reflW_mono hl hu hv hp hq
    rw [sa, sb] at hmono
    -- sign at `r'`
    have hE := kdX_neg hl (mul_pos hp hr')
    have hJ := idX_pos hl (mul_pos hq hr')
    have hc : 0 ≤ sphK (i + 1) (k * Real.sqrt b * r') / sphI (i + 1) (k * Real.sqrt b * r') :=
      div_nonneg (sphK_pos _ (mul_pos hq hr')).le (sphI_pos _ (mul_pos hq hr')).le
    have hden : (if P then b else 1) * kdX (i + 1) (k * Real.sqrt a * r') - (if P then a else 1) * idX (i + 1) (k * Real.sqrt b * r') < 0 := by
      have := mul_pos hu (neg_pos.mpr hE)
      have := mul_pos hv hJ
      linarith
    have hval := reflW_val hl hu hv hp hq hr'
    have pos : (if P then b else 1) * kdX (i + 1) (k * Real.sqrt a * r') - (if P then a else 1) * kdX (i + 1) (k * Real.sqrt b * r') ≤ 0 →
        0 ≤ reflW (i + 1) (if P then b else 1) (if P then a else 1) (k * Real.sqrt a) (k * Real.sqrt b) r' := by
      intro h; rw [hval]; exact mul_nonneg (div_nonneg_of_nonpos h hden.le) hc
    have neg : 0 ≤ (if P then b else 1) * kdX (i + 1) (k * Real.sqrt a * r') - (if P then a else 1) * kdX (i + 1) (k * Real.sqrt b * r') →
        reflW (i + 1) (if P then b else 1) (if P then a else 1) (k * Real.sqrt a) (k * Real.sqrt b) r' ≤ 0 := by
      intro h; rw [hval]; exact mul_nonpos_of_nonpos_of_nonneg (div_nonpos_of_nonneg_of_nonpos h hden.le) hc
    have up : ∀ {x y : ℝ}, 0 ≤ x → x ≤ y → |x| ≤ |y| := fun h1 h2 => by rw [abs_of_nonneg h1, abs_of_nonneg (h1.trans h2)]; exact h2
    have dn : ∀ {x y : ℝ}, x ≤ 0 → y ≤ x → |x| ≤ |y| := fun h1 h2 => by rw [abs_of_nonpos h1, abs_of_nonpos (h2.trans h1)]; linarith
    cases P with
    | false =>
      simp only [Bool.false_eq_true, if_false, one_mul] at *
      rcases le_total a b with h | h
      · exact dn (neg (by linarith [(kd_eps hl hk hr' e1 h).1])) ((hmono.2 le_rfl fun r _ => by gcongr) hr hr' hrr)
      · exact up (pos (by linarith [(kd_eps hl hk hr' e2 h).1])) ((hmono.1 le_rfl fun r _ => by gcongr) hr hr' hrr)
    | true =>
      simp only [if_true] at *
      have hΛ : ∀ r : ℝ, 0 ≤ ((i + 1 : ℕ) : ℝ) * (((i + 1 : ℕ) : ℝ) + 1) / r ^ 2 := fun r => by positivity
      rcases le_total a b with h | h
      · refine up (pos (by linarith [(kd_eps hl hk hr' e1 h).2])) ((hmono.1 h fun r _ => ?_) hr hr' hrr)
        have := mul_le_mul_of_nonneg_right h (hΛ r)
        nlinarith
      · refine dn (neg (by linarith [(kd_eps hl hk hr' e2 h).2])) ((hmono.2 h fun r _ => ?_) hr hr' hrr)
        have := mul_le_mul_of_nonneg_right h (hΛ r)
        nlinarith

/-- `m'` differs from the medium at least as much as `m` on the same side; perfect conductors count as denser than every dielectric. -/
def WallContrast (m m' md : Material) (k : ℝ) : Prop :=
  (m'.cls = .pec ∧ (m.cls = .pec ∨ md.epsV k ≤ m.epsV k)) ∨ (m.cls ≠ .pec ∧ m'.cls ≠ .pec ∧
    ((md.epsV k ≤ m.epsV k ∧ m.epsV k ≤ m'.epsV k) ∨ (m'.epsV k ≤ m.epsV k ∧ m.epsV k ≤ md.epsV k)))

theorem ratio_wall {x x' I K : ℝ} (hI : 0 < I) (hx : x < 0) (hx' : x' < 0) (hK : K < 0) (h : (K ≤ x ∧ x ≤ x') ∨ (x' ≤ x ∧ x ≤ K)) :
    |(x - K) / (x - I)| ≤ |(x' - K) / (x' - I)| := by
  have := ratio_contrast (x := -x) (x' := -x') (J := -K) (K := -I) (by linarith) (by linarith) (by linarith) (by linarith)
    (by rcases h with ⟨h1, h2⟩ | ⟨h1, h2⟩
        · exact .inr ⟨by linarith, by linarith⟩
        · exact .inl ⟨by linarith, by linarith⟩)
  have e : ∀ x : ℝ, (-x - -K) / (-x - -I) = (x - K) / (x - I) := fun x => by
    rw [← neg_div_neg_eq]; congr 1 <;> ring
  rwa [e, e] at this

/-- A wall of a material with more contrast reflects more. -/
theorem ampW_contrast (hs : SphereMat m) (hs' : SphereMat m') (hd : MediumMat md) (hr : 0 < r) (i : ℕ) (hk : 0 < k) (hc : WallContrast m m' md k) (P : Bool) :
    ampW m md r k P (i + 1) ≤ ampW m' md r k P (i + 1) := by
  have e2 := (medium_val hd.cls hd.phys hk).2
  rcases hc with ⟨hc, hc'⟩ | ⟨hm, hm', hc⟩
  · by_cases hm : m.cls = .pec
    · rw [ampW_pec hc hd hr i hk, ampW_pec hm hd hr i hk]
    · have hle := hc'.resolve_left hm
      rw [ampW_pec hc hd hr i hk]
      have e1 := (medium_val hm hs.phys hk).1
      have e3 := (medium_val hd.cls hd.phys hk).1
      have hσ : DenseSign m md k 1 := by
        refine .inl ⟨rfl, .inr ⟨hm, hs.phys, _, _, e1, e3, ?_, hle⟩⟩
        show m.muV k = md.muV k
        rw [muV_of_none hs.mag, muV_of_none hd.mag]
      obtain ⟨b, hb⟩ := wallCoef_exists hs.phys hd.phys hd.cls hk hr
      obtain ⟨A, hA⟩ := wall_ref hd.cls hd.phys hk hr e3 hσ hb
      have hv := hA.val (.inl rfl) P i
      have hbd := ((hA i).1 P).2
      simp only [flipOf_one, Bool.false_xor] at hbd
      have hx : k * r * (Medium.mk (md.epsV k) (md.muV k)).n = k * Real.sqrt (md.epsV k) * r := by
        unfold Medium.n; rw [muV_of_none hd.mag, mul_one]; ring
      rw [hx] at hbd
      refine le_trans (le_of_eq ?_) hbd
      rw [hv]
      unfold ampW
      rw [mieIntV_val (hb _ (by omega))]
  · have e1 := (medium_val hm hs.phys hk).2
    have e1' := (medium_val hm' hs'.phys hk).2
    rw [ampW_diel hm hs hd hr (by omega) hk, ampW_diel hm' hs' hd hr (by omega) hk]
    refine mul_le_mul_of_nonneg_left ?_ (by have := Real.pi_pos; positivity)
    set a := m.epsV k
    set a' := m'.epsV k
    set b := md.epsV k
    have hp : 0 < k * Real.sqrt a := by positivity
    have hp' : 0 < k * Real.sqrt a' := by positivity
    have hq : 0 < k * Real.sqrt b := by positivity
    have hl : 1 ≤ i + 1 := by omega
    have hE := kdX_neg hl (mul_pos hp hr)
    have hE' := kdX_neg hl (mul_pos hp' hr)
    have hJ := idX_pos hl (mul_pos hq hr)
    have hK := kdX_neg hl (mul_pos hq hr)
    have ls : ∀ {a b : ℝ}, 0 < a → a ≤ b → kdX (i + 1) (k * Real.sqrt a * r) / a ≤ kdX (i + 1) (k * Real.sqrt b * r) / b := by
      intro a b ha hab
      have hb := ha.trans_le hab
      rw [div_le_div_iff₀ ha hb]
      linarith [(kd_eps hl hk hr ha hab).2]
    cases P with
    | false =>
      simp only [Bool.false_eq_true, if_false]
      rw [reflW_val hl one_pos one_pos hp hq hr, reflW_val hl one_pos one_pos hp' hq hr, abs_mul, abs_mul]
      simp only [one_mul]
      refine mul_le_mul_of_nonneg_right (ratio_wall hJ hE hE' hK ?_) (abs_nonneg _)
      rcases hc with ⟨h1, h2⟩ | ⟨h1, h2⟩
      · exact .inr ⟨(kd_eps hl hk hr e1 h2).1, (kd_eps hl hk hr e2 h1).1⟩
      · exact .inl ⟨(kd_eps hl hk hr e1 h2).1, (kd_eps hl hk hr e1' h1).1⟩
    | true =>
      simp only [if_true]
      rw [reflW_val hl e2 e1 hp hq hr, reflW_val hl e2 e1' hp' hq hr, abs_mul, abs_mul]
      refine mul_le_mul_of_nonneg_right ?_ (abs_nonneg _)
      have key : ∀ {a I : ℝ}, 0 < a → (b * I - a * kdX (i + 1) (k * Real.sqrt b * r)) / (b * I - a * idX (i + 1) (k * Real.sqrt b * r)) =
          (b * (I / a) - kdX (i + 1) (k * Real.sqrt b * r)) / (b * (I / a) - idX (i + 1) (k * Real.sqrt b * r)) := by
        intro a I ha
        rw [← mul_div_mul_left _ (b * (I / a) - _) ha.ne']
        congr 1 <;> field_simp
      rw [key e1, key e1']
      have hb1 : b * (kdX (i + 1) (k * Real.sqrt b * r) / b) = kdX (i + 1) (k * Real.sqrt b * r) := by field_simp
      refine ratio_wall hJ (mul_neg_of_pos_of_neg e2 (div_neg_of_neg_of_pos hE e1)) (mul_neg_of_pos_of_neg e2 (div_neg_of_neg_of_pos hE' e1')) hK ?_
      rw [← hb1]
      rcases hc with ⟨h1, h2⟩ | ⟨h1, h2⟩
      · exact .inl ⟨mul_le_mul_of_nonneg_left (ls e2 h1) e2.le, mul_le_mul_of_nonneg_left (ls e1 h2) e2.le⟩
      · exact .inr ⟨mul_le_mul_of_nonneg_left (ls e1' h1) e2.le, mul_le_mul_of_nonneg_left (ls e1 h2) e2.le⟩

theorem ampW_stronger (hs : SphereMat m) (hs' : SphereMat m') (hd : MediumMat md) (hr : 0 < r') (hrr : r' ≤ r) (i : ℕ) (hk : 0 < k)
    (hc : WallContrast m m' md k) (P : Bool) : ampW m md r k P (i + 1) ≤ ampW m' md r' k P (i + 1) :=
  (ampW_radius hs hd hr hrr i hk P).trans (ampW_contrast hs hs' hd hr i hk hc P)

end

end CasSph
