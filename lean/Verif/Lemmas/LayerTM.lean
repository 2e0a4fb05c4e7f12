import Verif.Lemmas.LayerCompare
import Verif.Lemmas.MieSize
import Verif.Props.FloatMie
import Mathlib.Analysis.Calculus.MeanValue

/-! # Layered spheres reflect TM waves at least as strongly as TE waves

Inside a layered sphere let `t(r)` be the amplitude of the wave scattered by the part of the sphere inside the radius `r`, with the
medium outside.  It obeys a Riccati equation in `r` (variable phase equation), and the one for TM waves has the larger right-hand
side where both amplitudes have the same size. -/

namespace CasSph

open Spec Filter Topology Set

/-! ## Bessel functions -/

theorem le_kdX {l : ℕ} (hl : 1 ≤ l) {x : ℝ} (hx : 0 < x) : x ≤ -kdX l x := by
  obtain ⟨c, rfl⟩ := Nat.exists_eq_add_of_le' hl
  have k0 := sphK_pos c hx
  have k1 := sphK_pos (c + 1) hx
  have e : -kdX (c + 1) x = c + 1 + x * (sphK c x / sphK (c + 1) x) := by
    unfold kdX
    rw [Nat.add_sub_cancel]
    push_cast
    ring
  rw [e]
  rcases Nat.eq_zero_or_pos c with rfl | hc
  · have h1 := kdX_ge (l := 1) le_rfl hx
    have : -kdX 1 x = 0 + 1 + x * (sphK 0 x / sphK 1 x) := by
      unfold kdX
      norm_num
      ring
    push_cast at h1 ⊢
    rw [this] at h1
    linarith
  · obtain ⟨d, rfl⟩ := Nat.exists_eq_add_of_le' hc
    have kd := sphK_pos d hx
    have hr := sphK_rec d hx.ne'
    have h2 := kdX_sq_le (l := d + 1) (by omega) hx
    have e2 : -kdX (d + 1) x = d + 1 + x * (sphK d x / sphK (d + 1) x) := by
      unfold kdX
      rw [Nat.add_sub_cancel]
      push_cast
      ring
    set s := -kdX (d + 1) x with hs
    have hs2 : s ^ 2 ≤ x ^ 2 + (d + 1) * (d + 2) := by
      rw [hs, neg_sq]
      push_cast at h2
      linarith
    have hd : (0 : ℝ) ≤ d := by positivity
    have hs0 : 0 < s := by rw [e2]; positivity
    have hq : sphK (d + 1) x / sphK (d + 1 + 1) x = x / (s + d + 2) := by
      rw [show d + 1 + 1 = d + 2 from rfl, hr, e2]
      field_simp
      ring
    rw [hq]
    push_cast
    have hp : 0 < s + d + 2 := by positivity
    have : x ≤ d + 1 + 1 + x * (x / (s + d + 2)) := by
      rw [mul_div_assoc', ← sub_nonneg]
      have e3 : (d : ℝ) + 1 + 1 + x * x / (s + d + 2) - x = ((d + 2 - x) * (s + d + 2) + x ^ 2) / (s + d + 2) := by field_simp; ring
      rw [e3]
      refine div_nonneg ?_ hp.le
      rcases le_total x (d + 2) with h | h
      · have := mul_nonneg (sub_nonneg.mpr h) hp.le
        positivity
      · -- s ≤ x + (d+1)(d+2)/(2x)
        have h3 : s ≤ x + (d + 1) * (d + 2) / (2 * x) := by
          refine abs_le_of_sq_le_sq' ?_ (by positivity) |>.2
          have : (x + (d + 1) * (d + 2) / (2 * x)) ^ 2 = x ^ 2 + (d + 1) * (d + 2) + ((d + 1) * (d + 2) / (2 * x)) ^ 2 := by field_simp; ring
          rw [this]
          linarith [sq_nonneg (((d : ℝ) + 1) * (d + 2) / (2 * x))]
        have h4 : (x - (d + 2)) * (s + d + 2) ≤ (x - (d + 2)) * (x + (d + 1) * (d + 2) / (2 * x) + d + 2) :=
          mul_le_mul_of_nonneg_left (by linarith) (by linarith)
        have h5 : (x - (d + 2)) * (x + (d + 1) * (d + 2) / (2 * x) + d + 2) ≤ x ^ 2 := by
          have : (x - (d + 2)) * (x + (d + 1) * (d + 2) / (2 * x) + d + 2) =
              x ^ 2 + (d + 1) * (d + 2) / 2 - (d + 2) ^ 2 - (d + 2) * ((d + 1) * (d + 2) / (2 * x)) := by field_simp; ring
          rw [this]
          have : 0 ≤ ((d : ℝ) + 2) * ((d + 1) * (d + 2) / (2 * x)) := by positivity
          nlinarith
        linarith
    exact this

theorem lt_idX {l : ℕ} (hl : 1 ≤ l) {x : ℝ} (hx : 0 < x) : x < idX l x := by
  have h := idX_sq_ge hl hx
  have hl' : (0 : ℝ) < l := by exact_mod_cast hl
  refine lt_of_pow_lt_pow_left₀ 2 (idX_pos hl hx).le ?_
  have : (0 : ℝ) < l * (l + 1) := by positivity
  linarith

theorem idX_tendsto {l : ℕ} (hl : 1 ≤ l) {q : ℝ} (hq : 0 < q) : Tendsto (fun r => idX l (q * r)) (𝓝[>] 0) (𝓝 ((l : ℝ) + 1)) := by
  have h : Tendsto (fun r : ℝ => (l : ℝ) + 1 + (q * r) ^ 2 / (2 * l + 3)) (𝓝[>] 0) (𝓝 ((l : ℝ) + 1)) := by
    have : ContinuousAt (fun r : ℝ => (l : ℝ) + 1 + (q * r) ^ 2 / (2 * l + 3)) 0 := by fun_prop
    have := this.tendsto
    simp only [mul_zero] at this
    norm_num at this
    exact this.mono_left nhdsWithin_le_nhds
  refine tendsto_of_tendsto_of_tendsto_of_le_of_le' tendsto_const_nhds h ?_ ?_
  · filter_upwards [self_mem_nhdsWithin] with r hr
    exact (idX_gt hl (mul_pos hq hr)).le
  · filter_upwards [self_mem_nhdsWithin] with r hr
    exact idX_le_sq hl (mul_pos hq hr)

theorem kdX_tendsto {l : ℕ} (hl : 1 ≤ l) {q : ℝ} (hq : 0 < q) : Tendsto (fun r => kdX l (q * r)) (𝓝[>] 0) (𝓝 (-l)) := by
  have h : Tendsto (fun r : ℝ => -(l : ℝ) - q * r) (𝓝[>] 0) (𝓝 (-l)) := by
    have : ContinuousAt (fun r : ℝ => -(l : ℝ) - q * r) 0 := by fun_prop
    have := this.tendsto
    simp only [mul_zero, sub_zero] at this
    exact this.mono_left nhdsWithin_le_nhds
  refine tendsto_of_tendsto_of_tendsto_of_le_of_le' h tendsto_const_nhds ?_ ?_
  · filter_upwards [self_mem_nhdsWithin] with r hr
    have hx := mul_pos hq hr
    have h1 : sphK (l - 1) (q * r) / sphK l (q * r) ≤ 1 := (div_le_one (sphK_pos l hx)).mpr (sphK_mono (by omega) hx)
    unfold kdX
    nlinarith
  · filter_upwards [self_mem_nhdsWithin] with r hr
    have hx := mul_pos hq hr
    have h1 := div_pos (sphK_pos (l - 1) hx) (sphK_pos l hx)
    unfold kdX
    nlinarith

/-! ## The variable phase equation -/

section
variable {l : ℕ} {a b e : Layer} {r t : ℝ}

/-- Denominator of the equation. -/
noncomputable def phaseDen (l : ℕ) (e : Layer) (r : ℝ) : ℝ := sphI l (e.q * r) * sphK l (e.q * r) * (idX l (e.q * r) - kdX l (e.q * r))

theorem phaseDen_pos (hl : 1 ≤ l) (he : e.Pos) (hr : 0 < r) : 0 < phaseDen l e r := by
  have hx := mul_pos he.q hr
  have i1 := idX_pos hl hx
  have k1 := kdX_neg hl hx
  exact mul_pos (mul_pos (sphI_pos l hx) (sphK_pos l hx)) (by linarith)

theorem wron_lin (s : ℝ) : wron l a e t s r = wron l a e t 0 r - s * (wron l a e t 0 r - wron l a e t 1 r) := by
  unfold wron layU layD
  ring

theorem wron_diff : wron l a e t 0 r - wron l a e t 1 r = sphK l (e.q * r) * (e.w * layD l a t r - a.w * layU l a t r * kdX l (e.q * r)) := by
  unfold wron layU layD
  ring

theorem ampNext_wron (hl : 1 ≤ l) (he : e.Pos) (hr : 0 < r) :
    ampNext l a e r t = r * wron l a e t 0 r / (r * wron l a e t 0 r - r * wron l a e t 1 r) := by
  have hx := mul_pos he.q hr
  have hi := sphI_pos l hx
  have hk := sphK_pos l hx
  have e0 : ampNext l a e r t = (e.w * layD l a t r - a.w * layU l a t r * idX l (e.q * r)) /
      (e.w * layD l a t r - a.w * layU l a t r * kdX l (e.q * r)) * (sphI l (e.q * r) / sphK l (e.q * r)) := rfl
  rw [← mul_sub, mul_div_mul_left _ _ hr.ne', wron_diff, e0]
  have e1 : wron l a e t 0 r = sphI l (e.q * r) * (e.w * layD l a t r - a.w * layU l a t r * idX l (e.q * r)) := by
    unfold wron
    simp only [layU, layD]
    ring
  rw [e1, div_mul_div_comm, mul_comm (e.w * layD l a t r - a.w * layU l a t r * idX l (e.q * r)),
    mul_comm (e.w * layD l a t r - a.w * layU l a t r * kdX l (e.q * r))]

/-- The amplitude as a function of the radius at which the medium begins. -/
theorem ampNext_hasDerivAt (hl : 1 ≤ l) (ha : a.Pos) (he : e.Pos) (hr : 0 < r) (hg : Grow l (a.q * r) t) :
    HasDerivAt (fun y => ampNext l a e y t)
      ((layU l e (ampNext l a e r t) r ^ 2 * r * ((e.w * a.q ^ 2 - a.w * e.q ^ 2) * r + l * (l + 1) / r * (e.w - a.w)) / a.w +
        layD l e (ampNext l a e r t) r ^ 2 * (e.w - a.w) / e.w) / (r * phaseDen l e r)) r := by
  have d0 := wron_hasDerivAt (t := t) (t' := 0) hl ha he hr
  have d1 := wron_hasDerivAt (t := t) (t' := 1) hl ha he hr
  have hden : 0 < wron l a e t 0 r - wron l a e t 1 r := by
    rw [wron_diff]
    exact mul_pos (sphK_pos l (mul_pos he.q hr)) (ampNext_den hl ha he hr hg)
  have hden' : r * wron l a e t 0 r - r * wron l a e t 1 r ≠ 0 := by rw [← mul_sub]; exact (mul_pos hr hden).ne'
  have d := d0.div (d0.sub d1) hden'
  have eτ := ampNext_wron (a := a) (t := t) hl he hr
  obtain ⟨c, hc, hU, hD⟩ := ampNext_vals hl ha he hr hg
  set τ := ampNext l a e r t with hτ
  refine (d.congr_deriv ?_).congr_of_eventuallyEq ?_
  · have hU' : layU l a t r = layU l e τ r / (c * a.w) := by rw [hU]; have := ha.w.ne'; field_simp
    have hD' : layD l a t r = layD l e τ r / (c * e.w) := by rw [hD]; have := he.w.ne'; field_simp
    have hM : wron l a e t 0 r - wron l a e t 1 r = phaseDen l e r / c := by
      rw [wron_diff, hU', hD']
      unfold phaseDen layU layD
      have := ha.w.ne'
      have := he.w.ne'
      field_simp
      ring
    have w0 : r * wron l a e t 0 r = τ * (r * wron l a e t 0 r - r * wron l a e t 1 r) := by
      rw [eτ, div_mul_cancel₀ _ hden']
    have hQ := (phaseDen_pos hl he hr).ne'
    simp only [Pi.sub_apply]
    have hM' : r * wron l a e t 0 r - r * wron l a e t 1 r = r * (phaseDen l e r / c) := by rw [← mul_sub, hM]
    rw [hM'] at w0 ⊢
    rw [w0, hU', hD']
    clear hM hM' w0 d d0 d1 hden hden' eτ
    have l0 : layU l e 0 r = layU l e τ r + τ * sphK l (e.q * r) := by unfold layU; ring
    have l1 : layU l e 1 r = layU l e τ r + (τ - 1) * sphK l (e.q * r) := by unfold layU; ring
    have m0 : layD l e 0 r = layD l e τ r + τ * (kdX l (e.q * r) * sphK l (e.q * r)) := by unfold layD; ring
    have m1 : layD l e 1 r = layD l e τ r + (τ - 1) * (kdX l (e.q * r) * sphK l (e.q * r)) := by unfold layD; ring
    rw [l0, l1, m0, m1]
    clear l0 l1 m0 m1 hU' hD'
    generalize layU l e τ r = U at *
    generalize layD l e τ r = D at *
    generalize phaseDen l e r = Q at *
    have := ha.w.ne'
    have := he.w.ne'
    have := hr.ne'
    have := hc.ne'
    field_simp
    ring
  · filter_upwards [eventually_gt_nhds hr] with y hy
    exact ampNext_wron hl he hy

/-- The amplitude with the medium outside does not see an interface at the same radius. -/
theorem ampNext_trans (hl : 1 ≤ l) (ha : a.Pos) (hb : b.Pos) (he : e.Pos) (hr : 0 < r) (hg : Grow l (a.q * r) t) :
    ampNext l b e r (ampNext l a b r t) = ampNext l a e r t := by
  obtain ⟨c, hc, h⟩ := wron_next hl ha hb hr hg
  rw [ampNext_wron hl he hr, ampNext_wron hl he hr, h, h, ← mul_sub, ← mul_sub, ← mul_sub, mul_div_mul_left _ _ hr.ne', mul_div_mul_left _ _ hc.ne',
    mul_div_mul_left _ _ hr.ne']

end

/-! ## Comparison of the polarisations -/

/-- Where both amplitudes have the same size, the TM one grows faster. -/
theorem phase_key {l : ℕ} (hl : 1 ≤ l) {x τ A B : ℝ} (hx : 0 < x) (hA : 0 < A) (hB : 0 < B) (h : τ * sphK l x ≤ sphI l x) :
    0 < A * (sphI l x - -τ * sphK l x) ^ 2 +
      B * ((idX l x * sphI l x - -τ * (kdX l x * sphK l x)) ^ 2 - x ^ 2 * (sphI l x - τ * sphK l x) ^ 2) := by
  have hi := sphI_pos l hx
  have hk := sphK_pos l hx
  have h1 := lt_idX hl hx
  have h2 := le_kdX hl hx
  have h3 := kdX_le_idX hl hx
  have hU : 0 ≤ sphI l x - τ * sphK l x := sub_nonneg.mpr h
  have e : idX l x * sphI l x - -τ * (kdX l x * sphK l x) - x * (sphI l x - τ * sphK l x) =
      (idX l x - x) * sphI l x - τ * sphK l x * (-kdX l x - x) := by ring
  have hD : 0 ≤ idX l x * sphI l x - -τ * (kdX l x * sphK l x) - x * (sphI l x - τ * sphK l x) ∧
      (τ ≤ 0 → 0 < idX l x * sphI l x - -τ * (kdX l x * sphK l x) - x * (sphI l x - τ * sphK l x)) := by
    rw [e]
    have p := mul_pos (sub_pos.mpr h1) hi
    have hneg : τ ≤ 0 → τ * sphK l x * (-kdX l x - x) ≤ 0 := fun hτ =>
      mul_nonpos_of_nonpos_of_nonneg (mul_nonpos_of_nonpos_of_nonneg hτ hk.le) (sub_nonneg.mpr h2)
    refine ⟨?_, fun hτ => by linarith [hneg hτ]⟩
    have := mul_le_mul_of_nonneg_right h (sub_nonneg.mpr h2)
    nlinarith
  have hsq : (idX l x * sphI l x - -τ * (kdX l x * sphK l x)) ^ 2 - x ^ 2 * (sphI l x - τ * sphK l x) ^ 2 =
      (idX l x * sphI l x - -τ * (kdX l x * sphK l x) - x * (sphI l x - τ * sphK l x)) *
      (idX l x * sphI l x - -τ * (kdX l x * sphK l x) - x * (sphI l x - τ * sphK l x) + 2 * (x * (sphI l x - τ * sphK l x))) := by ring
  rw [hsq]
  have hxU := mul_nonneg hx.le hU
  rcases le_or_gt τ 0 with hτ | hτ
  · have p := hD.2 hτ
    generalize idX l x * sphI l x - -τ * (kdX l x * sphK l x) - x * (sphI l x - τ * sphK l x) = d at *
    have : 0 ≤ A * (sphI l x - -τ * sphK l x) ^ 2 := by positivity
    have : 0 < d + 2 * (x * (sphI l x - τ * sphK l x)) := by linarith
    positivity
  · have p := hD.1
    generalize idX l x * sphI l x - -τ * (kdX l x * sphK l x) - x * (sphI l x - τ * sphK l x) = d at *
    have q : 0 < sphI l x - -τ * sphK l x := by
      have := mul_pos hτ hk
      linarith
    have : 0 ≤ d + 2 * (x * (sphI l x - τ * sphK l x)) := by linarith
    have : 0 ≤ B * (d * (d + 2 * (x * (sphI l x - τ * sphK l x)))) := by positivity
    have : 0 < A * (sphI l x - -τ * sphK l x) ^ 2 := by positivity
    linarith

section
variable {l : ℕ} {a b e : Medium} {k r ρ σ t1 t2 : ℝ}

theorem Medium.n_sq (ha : a.Pos) (hm : a.mu = 1) : a.n ^ 2 = a.eps := by
  unfold Medium.n
  rw [Real.sq_sqrt (mul_nonneg ha.1.le ha.2.le), hm, mul_one]

/-- Sum of the amplitudes of both polarisations if the medium `e` begins at the radius `r`. -/
noncomputable def phaseSum (l : ℕ) (k : ℝ) (a e : Medium) (t1 t2 r : ℝ) : ℝ :=
  ampNext l (a.te k) (e.te k) r t1 + ampNext l (a.tm k) (e.tm k) r t2

/-- Moving outwards within a layer. -/
theorem phase_move (hl : 1 ≤ l) (hk : 0 < k) (ha : a.Pos) (he : e.Pos) (ma : a.mu = 1) (me : e.mu = 1) (hσ : 0 ≤ σ * (a.eps - e.eps)) (hρ : 0 < ρ) (hr : ρ ≤ r)
    (g1 : Grow l (k * a.n * ρ) t1) (g2 : Grow l (k * a.n * ρ) t2) (h : σ * phaseSum l k a e t1 t2 ρ ≤ 0) : σ * phaseSum l k a e t1 t2 r ≤ 0 := by
  have hr0 := hρ.trans_le hr
  have A1 := a.te_pos ha hk
  have A2 := a.tm_pos ha hk
  have E1 := e.te_pos he hk
  have E2 := e.tm_pos he hk
  rcases hσ.eq_or_lt with h0 | hpos
  · rcases mul_eq_zero.mp h0.symm with e0 | e0
    · rw [e0, zero_mul]
    · have ea : a = e := by
        have : a.eps = e.eps := by linarith
        cases a; cases e
        simp only at *
        subst this ma me
        rfl
      subst ea
      unfold phaseSum at h ⊢
      rw [ampNext_self hl A1 hr0, ampNext_self hl A2 hr0]
      rwa [ampNext_self hl A1 hρ, ampNext_self hl A2 hρ] at h
  have hq : 0 < k * a.n := A1.q
  have G : ∀ {t y}, Grow l (k * a.n * ρ) t → ρ ≤ y → Grow l (k * a.n * y) t := fun g hy => g.mono hl (mul_pos hq hρ) (mul_le_mul_of_nonneg_left hy hq.le)
  have d : ∀ y, ρ ≤ y → HasDerivAt (fun y => phaseSum l k a e t1 t2 y) _ y := fun y hy =>
    (ampNext_hasDerivAt hl A1 E1 (hρ.trans_le hy) (G g1 hy)).add (ampNext_hasDerivAt hl A2 E2 (hρ.trans_le hy) (G g2 hy))
  have key := image_le_of_deriv_right_lt_deriv_boundary' (f := fun _ : ℝ => (0 : ℝ)) (f' := fun _ => 0) (a := ρ) (b := r)
    (B := fun y => -σ * phaseSum l k a e t1 t2 y) continuousOn_const (fun y _ => hasDerivWithinAt_const _ _ _) (by simpa using by linarith)
    (fun y hy => ((d y hy.1).const_mul (-σ)).continuousAt.continuousWithinAt) (fun y hy => ((d y hy.1).const_mul (-σ)).hasDerivWithinAt) ?_ ⟨hr, le_rfl⟩
  · have := key
    linarith
  intro y hy heq
  have hy0 : 0 < y := hρ.trans_le hy.1
  have hσ0 : σ ≠ 0 := by rintro rfl; simp at hpos
  have hsum : phaseSum l k a e t1 t2 y = 0 := by
    rcases mul_eq_zero.mp heq.symm with e0 | e0
    · exact absurd (neg_eq_zero.mp e0) hσ0
    · exact e0
  have gE := ampNext_grow hl A1 E1 hy0 (G g1 hy.1)
  unfold phaseSum at hsum
  have e2 : ampNext l (a.tm k) (e.tm k) y t2 = -ampNext l (a.te k) (e.te k) y t1 := by linarith
  rw [e2]
  generalize ampNext l (a.te k) (e.te k) y t1 = τ at *
  have na := Medium.n_sq ha ma
  have ne := Medium.n_sq he me
  have hx : 0 < k * e.n * y := mul_pos E1.q hy0
  have hl' : (0 : ℝ) < l := by exact_mod_cast hl
  have pk := phase_key hl hx (A := l * (l + 1) / a.eps) (B := 1 / e.eps) (div_pos (by positivity) ha.1) (div_pos one_pos he.1) gE.1
  have hQ := phaseDen_pos hl E1 hy0
  have hQ' : phaseDen l (e.tm k) y = phaseDen l (e.te k) y := rfl
  rw [hQ']
  have f1 : (e.te k).w * (a.te k).q ^ 2 - (a.te k).w * (e.te k).q ^ 2 = k ^ 2 * (a.eps - e.eps) := by
    simp only [Medium.te, mul_pow, na, ne, ma, me]; ring
  have f2 : (e.tm k).w * (a.tm k).q ^ 2 - (a.tm k).w * (e.tm k).q ^ 2 = 0 := by
    simp only [Medium.tm, mul_pow, na, ne]; ring
  rw [f1, f2]
  have f3 : (e.te k).w - (a.te k).w = 0 := by simp only [Medium.te, ma, me, sub_self]
  have f4 : (a.te k).w = 1 := ma
  have f5 : (a.tm k).w = a.eps := rfl
  have f6 : (e.tm k).w = e.eps := rfl
  rw [f3, f4, f5, f6]
  have u1 : layU l (e.te k) τ y = sphI l (k * e.n * y) - τ * sphK l (k * e.n * y) := rfl
  have u2 : layU l (e.tm k) (-τ) y = sphI l (k * e.n * y) - -τ * sphK l (k * e.n * y) := rfl
  have u3 : layD l (e.tm k) (-τ) y = idX l (k * e.n * y) * sphI l (k * e.n * y) - -τ * (kdX l (k * e.n * y) * sphK l (k * e.n * y)) := rfl
  rw [u1, u2, u3]
  generalize phaseDen l (e.te k) y = Q at *
  have hx2 : (k * e.n * y) ^ 2 = k ^ 2 * e.eps * y ^ 2 := by rw [mul_pow, mul_pow, ne]
  rw [hx2] at pk
  generalize sphI l (k * e.n * y) - τ * sphK l (k * e.n * y) = U1 at *
  generalize sphI l (k * e.n * y) - -τ * sphK l (k * e.n * y) = U2 at *
  generalize idX l (k * e.n * y) * sphI l (k * e.n * y) - -τ * (kdX l (k * e.n * y) * sphK l (k * e.n * y)) = D2 at *
  generalize layD l (e.te k) τ y = D1 at *
  have := ha.1.ne'
  have := he.1.ne'
  have fin : -σ * ((U1 ^ 2 * y * (k ^ 2 * (a.eps - e.eps) * y + l * (l + 1) / y * 0) / 1 + D1 ^ 2 * 0 / (e.te k).w) / (y * Q) +
      (U2 ^ 2 * y * (0 * y + l * (l + 1) / y * (e.eps - a.eps)) / a.eps + D2 ^ 2 * (e.eps - a.eps) / e.eps) / (y * Q)) =
      σ * (a.eps - e.eps) / (y * Q) * (l * (l + 1) / a.eps * U2 ^ 2 + 1 / e.eps * (D2 ^ 2 - k ^ 2 * e.eps * y ^ 2 * U1 ^ 2)) := by
    field_simp
    ring
  rw [fin]
  exact mul_pos (div_pos hpos (mul_pos hy0 hQ)) pk

/-- A small homogeneous sphere. -/
theorem phase_small (hl : 1 ≤ l) (hk : 0 < k) (ha : a.Pos) (he : e.Pos) (ma : a.mu = 1) (me : e.mu = 1) (hσ : 0 ≤ σ * (a.eps - e.eps)) (hr : 0 < r) :
    ∃ ρ, 0 < ρ ∧ ρ < r ∧ σ * phaseSum l k a e 0 0 ρ ≤ 0 := by
  have A1 := a.te_pos ha hk
  have A2 := a.tm_pos ha hk
  have E1 := e.te_pos he hk
  have E2 := e.tm_pos he hk
  have form : ∀ ρ, 0 < ρ → ∃ Q, 0 < Q ∧ phaseSum l k a e 0 0 ρ = ((idX l (k * a.n * ρ) - idX l (k * e.n * ρ)) * (e.eps * idX l (k * a.n * ρ) - a.eps * kdX l (k * e.n * ρ)) +
      (e.eps * idX l (k * a.n * ρ) - a.eps * idX l (k * e.n * ρ)) * (idX l (k * a.n * ρ) - kdX l (k * e.n * ρ))) * Q := by
    intro ρ hρ
    have hx : 0 < k * a.n * ρ := mul_pos A1.q hρ
    have hy : 0 < k * e.n * ρ := mul_pos E1.q hρ
    have i1 := idX_pos hl hx
    have k1 := kdX_neg hl hy
    have p1 : 0 < idX l (k * a.n * ρ) - kdX l (k * e.n * ρ) := by linarith
    have p2 : 0 < e.eps * idX l (k * a.n * ρ) - a.eps * kdX l (k * e.n * ρ) := by
      have := mul_pos he.1 i1
      have := mul_neg_of_pos_of_neg ha.1 k1
      linarith
    refine ⟨sphI l (k * e.n * ρ) / sphK l (k * e.n * ρ) / ((idX l (k * a.n * ρ) - kdX l (k * e.n * ρ)) * (e.eps * idX l (k * a.n * ρ) - a.eps * kdX l (k * e.n * ρ))),
      div_pos (div_pos (sphI_pos l hy) (sphK_pos l hy)) (mul_pos p1 p2), ?_⟩
    have hi := (sphI_pos l hx).ne'
    unfold phaseSum
    rw [ampNext_zero A1 hρ, ampNext_zero A2 hρ]
    simp only [Medium.te, Medium.tm, ma, me]
    generalize sphI l (k * e.n * ρ) / sphK l (k * e.n * ρ) = w
    have := p1.ne'
    have := p2.ne'
    simp only [one_mul]
    generalize kdX l (k * e.n * ρ) = K at *
    generalize idX l (k * e.n * ρ) = J at *
    generalize idX l (k * a.n * ρ) = I at *
    have q1 : (I - J) / (I - K) * w + (e.eps * I - a.eps * J) / (e.eps * I - a.eps * K) * w =
        ((I - J) * (e.eps * I - a.eps * K) + (e.eps * I - a.eps * J) * (I - K)) * (w / ((I - K) * (e.eps * I - a.eps * K))) := by
      generalize e.eps * I - a.eps * K = d at *
      generalize I - K = c at *
      field_simp
      try ring
    exact q1
  suffices hs : ∀ᶠ ρ in 𝓝[>] (0 : ℝ), σ * ((idX l (k * a.n * ρ) - idX l (k * e.n * ρ)) * (e.eps * idX l (k * a.n * ρ) - a.eps * kdX l (k * e.n * ρ)) +
      (e.eps * idX l (k * a.n * ρ) - a.eps * idX l (k * e.n * ρ)) * (idX l (k * a.n * ρ) - kdX l (k * e.n * ρ))) ≤ 0 by
    obtain ⟨ρ, h1, h2⟩ := (hs.and (Ioo_mem_nhdsGT hr)).exists
    obtain ⟨Q, hQ, e1⟩ := form ρ h2.1
    refine ⟨ρ, h2.1, h2.2, ?_⟩
    rw [e1, ← mul_assoc]
    exact mul_nonpos_of_nonpos_of_nonneg h1 hQ.le
  rcases hσ.eq_or_lt with h0 | hpos
  · rcases mul_eq_zero.mp h0.symm with e0 | e0
    · simp [e0]
    · have ea : a = e := by
        have : a.eps = e.eps := by linarith
        cases a; cases e
        simp only at *
        subst this ma me
        rfl
      subst ea
      exact Eventually.of_forall fun ρ => by simp
  have tI := idX_tendsto hl A1.q
  have tJ := idX_tendsto hl E1.q
  have tK := kdX_tendsto hl E1.q
  have T := (((tI.sub tJ).mul ((tI.const_mul e.eps).sub (tK.const_mul a.eps))).add
    (((tI.const_mul e.eps).sub (tJ.const_mul a.eps)).mul (tI.sub tK))).const_mul σ
  have hl' : (0 : ℝ) < l := by exact_mod_cast hl
  have hneg : σ * (((l : ℝ) + 1 - (l + 1)) * (e.eps * (l + 1) - a.eps * -l) + (e.eps * (l + 1) - a.eps * (l + 1)) * ((l : ℝ) + 1 - -l)) < 0 := by
    have : σ * (((l : ℝ) + 1 - (l + 1)) * (e.eps * (l + 1) - a.eps * -l) + (e.eps * (l + 1) - a.eps * (l + 1)) * ((l : ℝ) + 1 - -l)) =
      -(σ * (a.eps - e.eps) * (((l : ℝ) + 1) * (2 * l + 1))) := by ring
    rw [this, neg_lt_zero]
    positivity
  filter_upwards [T.eventually (gt_mem_nhds hneg)] with ρ h
  exact h.le

end

end CasSph
