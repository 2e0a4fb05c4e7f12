import Verif.Lemmas.MieSize
import Verif.Lemmas.Stratified

/-! Sign and size of the amplitudes of layered spheres: comparison of the radial functions in the layers with the regular
one of the medium (a Wronskian), and with the power `r^l`. -/

namespace CasSph

open Spec Filter Topology Set

/-- The radial function `u = i_l - t k_l` in the layer `a`. -/
noncomputable def layU (l : ℕ) (a : Layer) (t r : ℝ) : ℝ := sphI l (a.q * r) - t * sphK l (a.q * r)

/-- `(r u)'` in the layer `a`. -/
noncomputable def layD (l : ℕ) (a : Layer) (t r : ℝ) : ℝ :=
  idX l (a.q * r) * sphI l (a.q * r) - t * (kdX l (a.q * r) * sphK l (a.q * r))

section
variable {l : ℕ} {a b e : Layer} {r t s : ℝ}

theorem layU_nonneg (h : Grow l (a.q * r) t) : 0 ≤ layU l a t r := sub_nonneg.mpr h.1
theorem layD_nonneg (h : Grow l (a.q * r) t) : 0 ≤ layD l a t r := sub_nonneg.mpr h.2

theorem layD_eq (ha : a.Pos) (hr : 0 < r) : layD l a t r =
    (a.q * r * sphI (l - 1) (a.q * r) - l * sphI l (a.q * r)) - t * (-(a.q * r * sphK (l - 1) (a.q * r)) - l * sphK l (a.q * r)) := by
  unfold layD
  rw [xI_eq (mul_pos ha.q hr), xK_eq (mul_pos ha.q hr)]

theorem hasDerivAt_lin (q r : ℝ) : HasDerivAt (fun s : ℝ => q * s) q r := by simpa using (hasDerivAt_id r).const_mul q

theorem layU_hasDerivAt (hl : 1 ≤ l) (ha : a.Pos) (hr : 0 < r) : HasDerivAt (fun y => y * layU l a t y) (layD l a t r) r := by
  have hx := mul_pos ha.q hr
  have h1 := ((xI_deriv hl hx).comp r (hasDerivAt_lin a.q r)).const_mul (1 / a.q)
  have h2 := ((xK_deriv hl hx).comp r (hasDerivAt_lin a.q r)).const_mul (t / a.q)
  have hq := ha.q.ne'
  refine ((h1.sub h2).congr_deriv ?_).congr_of_eventuallyEq (Eventually.of_forall fun y => ?_)
  · unfold layD; field_simp
  · simp only [layU, Function.comp, Pi.sub_apply]; field_simp

theorem layD_hasDerivAt (hl : 1 ≤ l) (ha : a.Pos) (hr : 0 < r) :
    HasDerivAt (layD l a t) ((a.q ^ 2 * r + l * (l + 1) / r) * layU l a t r) r := by
  have hx := mul_pos ha.q hr
  have hI : HasDerivAt (fun x => x * sphI (l - 1) x - l * sphI l x) (sphI l (a.q * r) * (a.q * r + l * (l + 1) / (a.q * r))) (a.q * r) := by
    refine (((hasDerivAt_id _).mul (sphI_deriv (l - 1) hx)).sub ((sphI_deriv l hx).const_mul (l : ℝ))).congr_deriv ?_
    obtain ⟨l, rfl⟩ := Nat.exists_eq_add_of_le' hl
    have hx' := hx.ne'
    have := sphI_rec l hx'
    simp only [Nat.add_sub_cancel]
    rw [this]
    generalize a.q * r = x at *
    push_cast
    field_simp
    ring
  have hK : HasDerivAt (fun x => -(x * sphK (l - 1) x) - l * sphK l x) (sphK l (a.q * r) * (a.q * r + l * (l + 1) / (a.q * r))) (a.q * r) := by
    refine (((hasDerivAt_id _).mul (sphK_deriv (l - 1) hx)).neg.sub ((sphK_deriv l hx).const_mul (l : ℝ))).congr_deriv ?_
    obtain ⟨l, rfl⟩ := Nat.exists_eq_add_of_le' hl
    have hx' := hx.ne'
    have := sphK_rec l hx'
    simp only [Nat.add_sub_cancel]
    rw [this]
    generalize a.q * r = x at *
    push_cast
    field_simp
    ring
  have hq := ha.q.ne'
  have h := (hI.comp r (hasDerivAt_lin a.q r)).sub ((hK.comp r (hasDerivAt_lin a.q r)).const_mul t)
  refine (h.congr_deriv ?_).congr_of_eventuallyEq ?_
  · unfold layU; field_simp
  · filter_upwards [Ioi_mem_nhds hr] with y hy
    rw [layD_eq ha hy]
    rfl

/-- Values on both sides of an interface. -/
theorem ampNext_vals (hl : 1 ≤ l) (ha : a.Pos) (hb : b.Pos) (hr : 0 < r) (h : Grow l (a.q * r) t) :
    ∃ c, 0 < c ∧ layU l b (ampNext l a b r t) r = c * (a.w * layU l a t r) ∧ layD l b (ampNext l a b r t) r = c * (b.w * layD l a t r) := by
  have hD := ampNext_den hl ha hb hr h
  have hy : 0 < b.q * r := mul_pos hb.q hr
  have k1 := kdX_neg hl hy
  have i1 := idX_pos hl hy
  have hi := sphI_pos l hy
  have hk := sphK_pos l hy
  refine ⟨sphI l (b.q * r) * (idX l (b.q * r) - kdX l (b.q * r)) / (b.w * layD l a t r - a.w * layU l a t r * kdX l (b.q * r)),
    div_pos (mul_pos hi (by linarith)) hD, ?_⟩
  have hD' : b.w * layD l a t r - a.w * layU l a t r * kdX l (b.q * r) ≠ 0 := hD.ne'
  have e : ampNext l a b r t = (b.w * layD l a t r - a.w * layU l a t r * idX l (b.q * r)) /
      (b.w * layD l a t r - a.w * layU l a t r * kdX l (b.q * r)) * (sphI l (b.q * r) / sphK l (b.q * r)) := rfl
  rw [e]
  have u : ∀ T, layU l b T r = sphI l (b.q * r) - T * sphK l (b.q * r) := fun _ => rfl
  have d : ∀ T, layD l b T r = idX l (b.q * r) * sphI l (b.q * r) - T * (kdX l (b.q * r) * sphK l (b.q * r)) := fun _ => rfl
  rw [u, d]
  generalize layD l a t r = P1 at *
  generalize layU l a t r = P0 at *
  generalize idX l (b.q * r) = I at *
  generalize kdX l (b.q * r) = K at *
  generalize sphI l (b.q * r) = i at *
  generalize sphK l (b.q * r) = k at *
  constructor
  · field_simp
    ring
  · field_simp
    ring

/-! ## sign -/

/-- `s` times the difference between the logarithmic derivatives (divided by the response `w`) of the radial function in the
layer `a` and of the regular one in the medium `e` is not negative. -/
def Side (s : ℝ) (l : ℕ) (a e : Layer) (r t : ℝ) : Prop :=
  0 ≤ s * (e.w * layD l a t r * layU l e 0 r - a.w * layU l a t r * layD l e 0 r)

/-- A layer compared with the medium: `s (q_a²/w_a - q_e²/w_e) ≥ 0` and `s (w_e - w_a) ≥ 0`. -/
def Rel (s : ℝ) (a e : Layer) : Prop := 0 ≤ s * (e.w * a.q ^ 2 - a.w * e.q ^ 2) ∧ 0 ≤ s * (e.w - a.w)

theorem side_hasDerivAt (hl : 1 ≤ l) (ha : a.Pos) (he : e.Pos) (hr : 0 < r) :
    HasDerivAt (fun y => y * (e.w * layD l a t y * layU l e 0 y - a.w * layU l a t y * layD l e 0 y))
      (layU l a t r * layU l e 0 r * r * ((e.w * a.q ^ 2 - a.w * e.q ^ 2) * r + l * (l + 1) / r * (e.w - a.w)) +
        layD l a t r * layD l e 0 r * (e.w - a.w)) r := by
  have h := (((layD_hasDerivAt (t := t) hl ha hr).mul (layU_hasDerivAt (t := 0) hl he hr)).const_mul e.w).sub
    (((layU_hasDerivAt (t := t) hl ha hr).mul (layD_hasDerivAt (t := 0) hl he hr)).const_mul a.w)
  refine (h.congr_deriv ?_).congr_of_eventuallyEq (Eventually.of_forall fun y => ?_)
  · ring
  · simp only [Pi.sub_apply, Pi.mul_apply]; ring

theorem side_mono (hl : 1 ≤ l) (ha : a.Pos) (he : e.Pos) (hR : Rel s a e) {r0 : ℝ} (hr0 : 0 < r0) (hg : Grow l (a.q * r0) t) :
    MonotoneOn (fun y => s * (y * (e.w * layD l a t y * layU l e 0 y - a.w * layU l a t y * layD l e 0 y))) (Ici r0) := by
  have hd := fun (y : ℝ) (hy : 0 < y) => (side_hasDerivAt (t := t) hl ha he hy).const_mul s
  refine monotoneOn_of_deriv_nonneg (convex_Ici r0) (fun y hy => (hd y (hr0.trans_le hy)).continuousAt.continuousWithinAt) ?_ ?_
  · intro y hy
    rw [interior_Ici] at hy
    exact (hd y (hr0.trans hy)).differentiableAt.differentiableWithinAt
  · intro y hy
    rw [interior_Ici] at hy
    have hy0 : 0 < y := hr0.trans hy
    rw [(hd y hy0).deriv]
    have g : Grow l (a.q * y) t := hg.mono hl (mul_pos ha.q hr0) (mul_le_mul_of_nonneg_left (le_of_lt hy) ha.q.le)
    have g0 : Grow l (e.q * y) 0 := by
      have hx := mul_pos he.q hy0
      have := sphI_pos l hx
      have := mul_pos (idX_pos hl hx) (sphI_pos l hx)
      constructor <;> linarith
    have u1 := layU_nonneg g
    have u2 := layU_nonneg g0
    have d1 := layD_nonneg g
    have d2 := layD_nonneg g0
    have e1 : s * (layU l a t y * layU l e 0 y * y * ((e.w * a.q ^ 2 - a.w * e.q ^ 2) * y + l * (l + 1) / y * (e.w - a.w)) +
        layD l a t y * layD l e 0 y * (e.w - a.w)) =
      layU l a t y * layU l e 0 y * y * (s * (e.w * a.q ^ 2 - a.w * e.q ^ 2) * y + l * (l + 1) / y * (s * (e.w - a.w))) +
        layD l a t y * layD l e 0 y * (s * (e.w - a.w)) := by ring
    rw [e1]
    have h1 := hR.1
    have h2 := hR.2
    positivity

theorem Side.mono (hl : 1 ≤ l) (ha : a.Pos) (he : e.Pos) (hR : Rel s a e) {r0 : ℝ} (hr0 : 0 < r0) (hr : r0 ≤ r)
    (hg : Grow l (a.q * r0) t) (h : Side s l a e r0 t) : Side s l a e r t := by
  have := side_mono hl ha he hR hr0 hg (mem_Ici.mpr le_rfl) (mem_Ici.mpr hr) hr
  simp only at this
  have h1 : 0 ≤ s * (r0 * (e.w * layD l a t r0 * layU l e 0 r0 - a.w * layU l a t r0 * layD l e 0 r0)) := by
    rw [mul_left_comm]; exact mul_nonneg hr0.le h
  have h2 := h1.trans this
  rw [mul_left_comm] at h2
  exact nonneg_of_mul_nonneg_right h2 (hr0.trans_le hr)

theorem Side.next (hl : 1 ≤ l) (ha : a.Pos) (hb : b.Pos) (hr : 0 < r) (hg : Grow l (a.q * r) t) (h : Side s l a e r t) :
    Side s l b e r (ampNext l a b r t) := by
  obtain ⟨c, hc, h1, h2⟩ := ampNext_vals hl ha hb hr hg
  unfold Side at h ⊢
  rw [h1, h2]
  have : s * (e.w * (c * (b.w * layD l a t r)) * layU l e 0 r - b.w * (c * (a.w * layU l a t r)) * layD l e 0 r) =
      c * b.w * (s * (e.w * layD l a t r * layU l e 0 r - a.w * layU l a t r * layD l e 0 r)) := by ring
  rw [this]
  exact mul_nonneg (mul_nonneg hc.le hb.w.le) h

/-- The regular solution of a homogeneous core. -/
theorem side_core (hl : 1 ≤ l) (ha : a.Pos) (he : e.Pos) (hR : Rel s a e) (hr : 0 < r) : Side s l a e r 0 := by
  have gz : ∀ y, 0 < y → Grow l (a.q * y) 0 := fun y hy => by
    have hx := mul_pos ha.q hy
    have := sphI_pos l hx
    have := mul_pos (idX_pos hl hx) (sphI_pos l hx)
    constructor <;> linarith
  have lim : ∀ {c : Layer}, c.Pos → Tendsto (fun y => layU l c 0 y) (𝓝[>] 0) (𝓝 0) ∧ Tendsto (fun y => layD l c 0 y) (𝓝[>] 0) (𝓝 0) := by
    intro c hc
    have hq : Tendsto (fun y : ℝ => c.q * y) (𝓝[>] 0) (𝓝[>] 0) := by
      refine tendsto_nhdsWithin_iff.mpr ⟨?_, ?_⟩
      · have : Tendsto (fun y : ℝ => c.q * y) (𝓝 0) (𝓝 (c.q * 0)) := (continuous_const.mul continuous_id).tendsto 0
        rw [mul_zero] at this
        exact this.mono_left nhdsWithin_le_nhds
      · filter_upwards [self_mem_nhdsWithin] with y hy using mul_pos hc.q hy
    have i0 := (sphI_tendsto_zero (l - 1)).comp hq
    have i1 := (sphI_tendsto_zero l).comp hq
    rw [if_neg (by omega)] at i1
    constructor
    · refine i1.congr fun y => ?_
      simp [layU]
    · have h := ((hq.mono_right nhdsWithin_le_nhds).mul i0).sub (i1.const_mul (l : ℝ))
      rw [zero_mul, mul_zero, sub_zero] at h
      refine h.congr' ?_
      filter_upwards [self_mem_nhdsWithin] with y hy
      rw [layD_eq hc hy]
      simp
  have hid : Tendsto (fun y : ℝ => y) (𝓝[>] 0) (𝓝 0) := tendsto_id.mono_left nhdsWithin_le_nhds
  have hlim : Tendsto (fun y => s * (y * (e.w * layD l a 0 y * layU l e 0 y - a.w * layU l a 0 y * layD l e 0 y))) (𝓝[>] 0) (𝓝 0) := by
    have h := (hid.mul ((((lim ha).2.const_mul e.w).mul (lim he).1).sub (((lim ha).1.const_mul a.w).mul (lim he).2))).const_mul s
    simpa using h
  have key : 0 ≤ s * (r * (e.w * layD l a 0 r * layU l e 0 r - a.w * layU l a 0 r * layD l e 0 r)) := by
    refine le_of_tendsto hlim ?_
    filter_upwards [Ioo_mem_nhdsGT hr] with y hy
    exact side_mono hl ha he hR hy.1 (gz y hy.1) (mem_Ici.mpr le_rfl) (mem_Ici.mpr hy.2.le) hy.2.le
  rw [mul_left_comm] at key
  exact nonneg_of_mul_nonneg_right key hr

/-- Outside the sphere the sign is that of the amplitude. -/
theorem Side.final (hl : 1 ≤ l) (he : e.Pos) (hr : 0 < r) (h : Side s l e e r t) : 0 ≤ s * t := by
  have hx := mul_pos he.q hr
  have hi := sphI_pos l hx
  have hk := sphK_pos l hx
  have i1 := idX_pos hl hx
  have k1 := kdX_neg hl hx
  unfold Side layU layD at h
  have : s * (e.w * (idX l (e.q * r) * sphI l (e.q * r) - t * (kdX l (e.q * r) * sphK l (e.q * r))) * (sphI l (e.q * r) - 0 * sphK l (e.q * r)) -
      e.w * (sphI l (e.q * r) - t * sphK l (e.q * r)) * (idX l (e.q * r) * sphI l (e.q * r) - 0 * (kdX l (e.q * r) * sphK l (e.q * r)))) =
    (e.w * sphI l (e.q * r) * sphK l (e.q * r) * (idX l (e.q * r) - kdX l (e.q * r))) * (s * t) := by ring
  rw [this] at h
  have hw := he.w
  have hd : 0 < idX l (e.q * r) - kdX l (e.q * r) := by linarith
  exact nonneg_of_mul_nonneg_right h (by positivity)

theorem ampRun_side (hl : 1 ≤ l) (he : e.Pos) (L : List (ℝ × Layer)) : ∀ {a : Layer} {r0 t : ℝ}, a.Pos → 0 < r0 → Rel s a e →
    Grow l (a.q * r0) t → Side s l a e r0 t → (∀ x ∈ L, x.2.Pos ∧ Rel s x.2 e) → List.Pairwise (· ≤ ·) (r0 :: L.map Prod.fst) →
    Side s l (lastLayer a L) e (lastRad r0 L) (ampRun l a t L) := by
  induction L with
  | nil => intro a r0 t _ _ _ _ h _ _; exact h
  | cons x L ih =>
    obtain ⟨r, b⟩ := x
    intro a r0 t ha hr0 hR hg h hp hs
    have hr : r0 ≤ r := (List.pairwise_cons.1 hs).1 r (by simp)
    have hrp : 0 < r := hr0.trans_le hr
    have hb := hp (r, b) List.mem_cons_self
    have hg' : Grow l (a.q * r) t := hg.mono hl (mul_pos ha.q hr0) (mul_le_mul_of_nonneg_left hr ha.q.le)
    exact ih hb.1 hrp hb.2 (ampNext_grow hl ha hb.1 hrp hg')
      ((h.mono hl ha he hR hr0 hr hg).next hl ha hb.1 hrp hg') (fun y hy => hp y (List.mem_cons_of_mem _ hy))
      (List.pairwise_cons.1 hs).2

/-! ## size -/

/-- The radial function grows at least like `r^l`. -/
def Steep (l : ℕ) (x t : ℝ) : Prop := 0 ≤ sphI (l + 1) x + t * sphK (l + 1) x

theorem steep_iff (hl : 1 ≤ l) (ha : a.Pos) (hr : 0 < r) : Steep l (a.q * r) t ↔ (l + 1) * layU l a t r ≤ layD l a t r := by
  have hx := mul_pos ha.q hr
  rw [layD_eq ha hr]
  obtain ⟨c, rfl⟩ := Nat.exists_eq_add_of_le' hl
  have h1 := sphI_rec' c (a.q * r)
  have h2 := sphK_rec c hx.ne'
  unfold Steep layU
  rw [Nat.add_sub_cancel]
  have e : (a.q * r * sphI c (a.q * r) - ((c + 1 : ℕ) : ℝ) * sphI (c + 1) (a.q * r)) -
      t * (-(a.q * r * sphK c (a.q * r)) - ((c + 1 : ℕ) : ℝ) * sphK (c + 1) (a.q * r)) -
      (((c + 1 : ℕ) : ℝ) + 1) * (sphI (c + 1) (a.q * r) - t * sphK (c + 1) (a.q * r)) =
      (a.q * r) * (sphI (c + 1 + 1) (a.q * r) + t * sphK (c + 1 + 1) (a.q * r)) := by
    have hx' := hx.ne'
    rw [h2]
    generalize a.q * r = x at *
    push_cast
    field_simp
    linear_combination h1
  rw [← sub_nonneg (a := _ - _ - _), e]
  exact ⟨fun h => mul_nonneg hx.le h, fun h => nonneg_of_mul_nonneg_right h hx⟩

theorem Steep.mono {x y : ℝ} (hx : 0 < x) (hxy : x ≤ y) (h : Steep l x t) : Steep l y t := by
  have hy := hx.trans_le hxy
  have a1 := (sphI_mono_arg (l + 1)).monotoneOn hx hy hxy
  have a2 := (sphK_anti_arg (l := l + 1) (by omega)).antitoneOn hx hy hxy
  have i := sphI_pos (l + 1) hy
  have k := sphK_pos (l + 1) hy
  unfold Steep at h ⊢
  rcases le_total 0 t with ht | ht
  · positivity
  · nlinarith [mul_le_mul_of_nonpos_left a2 ht]

theorem Steep.next (hl : 1 ≤ l) (ha : a.Pos) (hb : b.Pos) (hr : 0 < r) (hw : a.w ≤ b.w) (hg : Grow l (a.q * r) t)
    (h : Steep l (a.q * r) t) : Steep l (b.q * r) (ampNext l a b r t) := by
  rw [steep_iff hl ha hr] at h
  rw [steep_iff hl hb hr]
  obtain ⟨c, hc, h1, h2⟩ := ampNext_vals hl ha hb hr hg
  rw [h1, h2]
  have d := layD_nonneg hg
  have hwa := ha.w
  calc _ = c * (a.w * ((l + 1) * layU l a t r)) := by ring
    _ ≤ c * (a.w * layD l a t r) := mul_le_mul_of_nonneg_left (mul_le_mul_of_nonneg_left h hwa.le) hc.le
    _ ≤ _ := mul_le_mul_of_nonneg_left (mul_le_mul_of_nonneg_right hw d) hc.le

theorem steep_nonneg {x : ℝ} (hx : 0 < x) (ht : 0 ≤ t) : Steep l x t := by
  have i := sphI_pos (l + 1) hx
  have k := sphK_pos (l + 1) hx
  unfold Steep; positivity

theorem Steep.abs_le {x : ℝ} (hx : 0 < x) (hg : Grow l x t) (h : Steep l x t) : |t| ≤ sphI l x / sphK l x := by
  have i := sphI_pos (l + 1) hx
  have k := sphK_pos (l + 1) hx
  have i0 := sphI_pos l hx
  have k0 := sphK_pos l hx
  have hi := (sphI_succ_lt l hx).le
  have hk := (sphK_lt_succ l hx).le
  rw [_root_.abs_le]
  refine ⟨?_, by rw [le_div_iff₀ k0]; exact hg.1⟩
  rw [neg_le, le_div_iff₀ k0]
  unfold Steep at h
  rcases le_total 0 t with ht | ht
  · nlinarith
  · nlinarith [mul_le_mul_of_nonneg_left hk (neg_nonneg.mpr ht)]

theorem ampRun_steep (hl : 1 ≤ l) (L : List (ℝ × Layer)) : ∀ {a : Layer} {r0 t : ℝ}, a.Pos → 0 < r0 →
    Grow l (a.q * r0) t → Steep l (a.q * r0) t → (∀ x ∈ L, x.2.Pos) → List.Pairwise (· ≤ ·) (r0 :: L.map Prod.fst) →
    List.Pairwise (· ≤ ·) (a.w :: L.map fun x => x.2.w) →
    Steep l ((lastLayer a L).q * lastRad r0 L) (ampRun l a t L) := by
  induction L with
  | nil => intro a r0 t _ _ _ h _ _ _; exact h
  | cons x L ih =>
    obtain ⟨r, b⟩ := x
    intro a r0 t ha hr0 hg h hp hs hw
    have hr : r0 ≤ r := (List.pairwise_cons.1 hs).1 r (by simp)
    have hrp : 0 < r := hr0.trans_le hr
    have hb := hp (r, b) List.mem_cons_self
    have hxy := mul_le_mul_of_nonneg_left hr ha.q.le
    have hg' : Grow l (a.q * r) t := hg.mono hl (mul_pos ha.q hr0) hxy
    exact ih hb hrp (ampNext_grow hl ha hb hrp hg')
      ((h.mono (mul_pos ha.q hr0) hxy).next hl ha hb hrp ((List.pairwise_cons.1 hw).1 _ (by simp)) hg')
      (fun y hy => hp y (List.mem_cons_of_mem _ hy)) (List.pairwise_cons.1 hs).2 (List.pairwise_cons.1 hw).2

/-- A bound on both sides that holds for any composition. -/
theorem Grow.abs_le (hl : 1 ≤ l) {x : ℝ} (hx : 0 < x) (hg : Grow l x t) : |t| ≤ idX l x / -kdX l x * (sphI l x / sphK l x) := by
  have i0 := sphI_pos l hx
  have k0 := sphK_pos l hx
  have i1 := idX_pos hl hx
  have k1 := kdX_neg hl hx
  have hd : 0 < -kdX l x := by linarith
  have hik := div_pos i0 k0
  have h1 : 1 ≤ idX l x / -kdX l x := by rw [le_div_iff₀ hd, one_mul]; exact kdX_le_idX hl hx
  have h2 : t ≤ sphI l x / sphK l x := by rw [le_div_iff₀ k0]; exact hg.1
  have h3 : -t ≤ idX l x / -kdX l x * (sphI l x / sphK l x) := by
    rw [div_mul_div_comm, le_div_iff₀ (mul_pos hd k0)]
    have := hg.2
    linarith
  rw [_root_.abs_le]
  constructor
  · linarith
  · nlinarith

end

end CasSph
