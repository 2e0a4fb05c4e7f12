import Verif.Spec.FlMie
import Verif.Lemmas.Near
import Verif.Lemmas.MieSize
import Verif.Lemmas.CavityMie

/-! # Rounding errors of the quantities that enter the Mie coefficients -/

namespace CasSph

open Spec

theorem Near.sqrt {w a b : ℝ} (h : Near w a b) : Near (w / 2) (Real.sqrt a) (Real.sqrt b) := by
  refine ⟨Real.sqrt_pos.2 h.a0, Real.sqrt_pos.2 h.b0, ?_⟩
  rw [Real.log_sqrt h.a0.le, Real.log_sqrt h.b0.le, ← sub_div, abs_div, abs_two]
  linarith [h.le]

/-- A function that increases, but not faster than `x²`, doubles logarithmic errors at most. -/
theorem Near.growth {f : ℝ → ℝ} (f0 : ∀ x, 0 < x → 0 < f x) (f1 : ∀ x y, 0 < x → x ≤ y → f x ≤ f y)
    (f2 : ∀ x y, 0 < x → x ≤ y → f y * x ^ 2 ≤ f x * y ^ 2) {w x y : ℝ} (h : Near w x y) : Near (2 * w) (f x) (f y) := by
  have key : ∀ x y, Near w x y → x ≤ y → Near (2 * w) (f x) (f y) := by
    intro x y h hxy
    have hx := h.a0
    have hy := h.b0
    refine ⟨f0 x hx, f0 y hy, ?_⟩
    have l1 := Real.log_le_log (f0 x hx) (f1 x y hx hxy)
    have l2 := Real.log_le_log (mul_pos (f0 y hy) (pow_pos hx 2)) (f2 x y hx hxy)
    rw [Real.log_mul (f0 y hy).ne' (pow_pos hx 2).ne', Real.log_mul (f0 x hx).ne' (pow_pos hy 2).ne', Real.log_pow,
      Real.log_pow] at l2
    push_cast at l2
    have := (abs_le.1 h.le).1
    rw [abs_le]
    constructor <;> linarith [h.w0]
  rcases le_total x y with hxy | hxy
  · exact key x y h hxy
  · exact (key y x h.symm hxy).symm

theorem idX_near {l : ℕ} (hl : 1 ≤ l) {w x y : ℝ} (h : Near w x y) : Near (2 * w) (idX l x) (idX l y) := by
  refine Near.growth (fun x hx => idX_pos hl hx) (fun x y hx hxy => ?_) (fun x y hx hxy => ?_) h
  · rcases hxy.eq_or_lt with rfl | h
    · exact le_rfl
    · exact (idX_strictMono hl hx h).le
  · rcases hxy.eq_or_lt with rfl | h
    · exact le_rfl
    · have := idX_sq_anti hl hx h
      rw [div_lt_div_iff₀ (by have := hx.trans h; positivity) (by positivity)] at this
      exact this.le

theorem kdX_near {l : ℕ} (hl : 1 ≤ l) {w x y : ℝ} (h : Near w x y) : Near (2 * w) (-kdX l x) (-kdX l y) := by
  refine Near.growth (f := fun x => -kdX l x) (fun x hx => neg_pos.2 (kdX_neg hl hx)) (fun x y hx hxy => ?_)
    (fun x y hx hxy => ?_) h
  · have := (kRatio_mono hl hx hxy).1
    unfold kdX; linarith
  · have h1 := (kRatio_mono hl hx hxy).2.1
    have h2 : (l : ℝ) * x ^ 2 ≤ l * y ^ 2 := by gcongr
    unfold kdX; linarith

theorem sphK_step (c : ℕ) {x : ℝ} (hx : 0 < x) : x * sphK (c + 1) x ≤ (x + (2 * c + 1)) * sphK c x := by
  cases c with
  | zero =>
    have h1 : x * sphK 1 x = (x + 1) * sphK 0 x := by
      unfold sphK
      simp [Finset.sum_range_succ]
      field_simp
    rw [h1]; push_cast; linarith
  | succ c =>
    have hr := sphK_rec c hx.ne'
    have hlt := (sphK_lt_succ c hx).le
    rw [hr]
    push_cast
    have e : x * (sphK c x + (2 * c + 3) / x * sphK (c + 1) x) = x * sphK c x + (2 * c + 3) * sphK (c + 1) x := by
      field_simp
    rw [e]
    nlinarith

/-- `(x i_l)'/i_l ≤ -2 (x k_l)'/k_l`. -/
theorem idX_le_two_kdX {l : ℕ} (hl : 1 ≤ l) {x : ℝ} (hx : 0 < x) : idX l x ≤ 2 * -kdX l x := by
  have hl' : (1 : ℝ) ≤ l := by exact_mod_cast hl
  have h1 := kdX_ge hl hx
  have h3 : idX l x ≤ l + 1 + x ^ 2 / (2 * l + 3) := by
    have hI := sphI_pos l hx
    have hI1 := sphI_pos (l + 1) hx
    have e : idX l x = l + 1 + x * (sphI (l + 1) x / sphI l x) := by
      obtain ⟨c, rfl⟩ := Nat.exists_eq_add_of_le' hl
      have hr := sphI_rec' c x
      unfold idX
      rw [Nat.add_sub_cancel]
      push_cast
      field_simp
      linear_combination hr
    rw [e]
    have := (sphI_ratio_gt l hx).le
    rw [← mul_div_assoc, le_div_iff₀ hI1] at this
    refine add_le_add le_rfl ?_
    rw [← mul_div_assoc, div_le_div_iff₀ hI (by positivity)]
    nlinarith
  have h4 := idX_le hl hx
  have h5 : (l : ℝ) < -kdX l x := by
    have h1 := sphK_pos (l - 1) hx
    have h2 := sphK_pos l hx
    have : 0 < x * (sphK (l - 1) x / sphK l x) := by positivity
    unfold kdX; linarith
  have h6 : (x + (2 * l - 1)) * (-kdX l x - l) ≥ x ^ 2 := by
    obtain ⟨c, rfl⟩ := Nat.exists_eq_add_of_le' hl
    have hk0 := sphK_pos c hx
    have hk := sphK_pos (c + 1) hx
    have hstep := sphK_step c hx
    have e : -kdX (c + 1) x - ((c + 1 : ℕ) : ℝ) = x * (sphK c x / sphK (c + 1) x) := by
      unfold kdX; rw [Nat.add_sub_cancel]; push_cast; ring
    rw [e]
    push_cast
    rw [← mul_div_assoc, ← mul_div_assoc, ge_iff_le, le_div_iff₀ hk]
    nlinarith
  rcases le_total (2 * (l : ℝ) - 1) x with h | h
  · nlinarith
  · have : x ^ 2 / (2 * (l : ℝ) + 3) ≤ -kdX l x - l + (-kdX l x - l) := by
      rw [div_le_iff₀ (by positivity)]
      nlinarith
    linarith

/-! ## Logarithms of the ratios -/

theorem log_ratioI {l : ℕ} (hl : 1 ≤ l) {x : ℝ} (hx : 0 < x) :
    |Real.log (sphI (l - 1) x) - Real.log (sphI l x)| ≤ Real.log (1 + (2 * l + 1) / x) := by
  have h0 := sphI_pos (l - 1) hx
  have h1 := sphI_pos l hx
  rw [← Real.log_div h0.ne' h1.ne']
  have hi := idX_le hl hx
  have hm : sphI l x ≤ sphI (l - 1) x := sphI_anti (Nat.sub_le l 1) hx
  rw [abs_of_nonneg (Real.log_nonneg ((one_le_div h1).2 hm))]
  refine Real.log_le_log (by positivity) ?_
  unfold idX at hi
  rw [show 1 + (2 * (l : ℝ) + 1) / x = (x + (2 * l + 1)) / x by field_simp, le_div_iff₀ hx]
  linarith

theorem log_ratioK {l : ℕ} (hl : 1 ≤ l) {x : ℝ} (hx : 0 < x) :
    |Real.log (sphK (l - 1) x) - Real.log (sphK l x)| ≤ Real.log (1 + (2 * l + 1) / x) := by
  have h0 := sphK_pos (l - 1) hx
  have h1 := sphK_pos l hx
  have hm : sphK (l - 1) x ≤ sphK l x := sphK_mono (Nat.sub_le l 1) hx
  rw [abs_sub_comm, ← Real.log_div h1.ne' h0.ne', abs_of_nonneg (Real.log_nonneg ((one_le_div h0).2 hm))]
  refine Real.log_le_log (by positivity) ?_
  obtain ⟨c, rfl⟩ := Nat.exists_eq_add_of_le' hl
  rw [Nat.add_sub_cancel] at *
  rw [div_le_iff₀ h0]
  cases c with
  | zero =>
    have h1 : x * sphK 1 x = (x + 1) * sphK 0 x := by
      unfold sphK
      simp [Finset.sum_range_succ]
      field_simp
    have : sphK 1 x = (1 + 1 / x) * sphK 0 x := by field_simp; linarith
    rw [zero_add, this]
    gcongr
    push_cast; norm_num
  | succ c =>
    have hr := sphK_rec c hx.ne'
    have hlt := (sphK_lt_succ c hx).le
    rw [hr, add_mul, one_mul]
    exact add_le_add hlt (mul_le_mul_of_nonneg_right (div_le_div_of_nonneg_right (by push_cast; linarith) hx.le) h0.le)

theorem log_arg_near {w x y c : ℝ} (hc : 0 ≤ c) (h : Near w x y) : Real.log (1 + c / x) ≤ Real.log (1 + c / y) + w := by
  have hx := h.a0
  have hy := h.b0
  have h1 : 1 + c / x ≤ Real.exp w * (1 + c / y) := by
    have := h.symm.upper
    have e1 : 1 ≤ Real.exp w := Real.one_le_exp h.w0
    have : c / x ≤ Real.exp w * (c / y) := by
      rw [← mul_div_assoc, div_le_div_iff₀ hx hy]
      nlinarith
    linarith
  have := Real.log_le_log (by positivity) h1
  rw [Real.log_mul (Real.exp_ne_zero _) (by positivity), Real.log_exp] at this
  linarith

theorem logI_growth (l : ℕ) {x y : ℝ} (hx : 0 < x) (hxy : x ≤ y) :
    Real.log (sphI l y) - y - l * Real.log y ≤ Real.log (sphI l x) - x - l * Real.log x := by
  have hd : ∀ z ∈ Set.Ioi (0 : ℝ), HasDerivAt (fun z => Real.log (sphI l z) - z - l * Real.log z)
      ((sphI (l + 1) z + l / z * sphI l z) / sphI l z - 1 - l * z⁻¹) z := fun z hz =>
    (((sphI_deriv l hz).log (sphI_pos l hz).ne').sub (hasDerivAt_id z)).sub ((Real.hasDerivAt_log (ne_of_gt hz)).const_mul _)
  refine antitoneOn_of_deriv_nonpos (convex_Ioi (0 : ℝ)) (fun z hz => (hd z hz).continuousAt.continuousWithinAt)
    (fun z hz => (hd z (interior_subset hz)).differentiableAt.differentiableWithinAt) (fun z hz => ?_) hx
    (hx.trans_le hxy) hxy
  rw [(hd z (interior_subset hz)).deriv]
  have hz : 0 < z := interior_subset hz
  have h1 := sphI_pos l hz
  have h2 := (sphI_succ_lt l hz).le
  have e : (sphI (l + 1) z + l / z * sphI l z) / sphI l z - 1 - l * z⁻¹ = (sphI (l + 1) z - sphI l z) / sphI l z := by
    field_simp
    ring
  rw [e]
  exact div_nonpos_of_nonpos_of_nonneg (by linarith) h1.le

theorem logK_growth (l : ℕ) {x y : ℝ} (hx : 0 < x) (hxy : x ≤ y) :
    Real.log (sphK l x) + x + (l + 1) * Real.log x ≤ Real.log (sphK l y) + y + (l + 1) * Real.log y := by
  have hd : ∀ z ∈ Set.Ioi (0 : ℝ), HasDerivAt (fun z => Real.log (sphK l z) + z + (l + 1) * Real.log z)
      ((-(sphK (l + 1) z) + l / z * sphK l z) / sphK l z + 1 + (l + 1) * z⁻¹) z := fun z hz =>
    (((sphK_deriv l hz).log (sphK_pos l hz).ne').add (hasDerivAt_id z)).add ((Real.hasDerivAt_log (ne_of_gt hz)).const_mul _)
  refine monotoneOn_of_deriv_nonneg (convex_Ioi (0 : ℝ)) (fun z hz => (hd z hz).continuousAt.continuousWithinAt)
    (fun z hz => (hd z (interior_subset hz)).differentiableAt.differentiableWithinAt) (fun z hz => ?_) hx
    (hx.trans_le hxy) hxy
  rw [(hd z (interior_subset hz)).deriv]
  have hz : 0 < z := interior_subset hz
  have h1 := sphK_pos l hz
  have hstep : z * sphK (l + 1) z ≤ (z + (2 * l + 1)) * sphK l z := sphK_step l hz
  have e : (-(sphK (l + 1) z) + l / z * sphK l z) / sphK l z + 1 + (l + 1) * z⁻¹ =
      ((z + (2 * l + 1)) * sphK l z - z * sphK (l + 1) z) / (z * sphK l z) := by
    field_simp
    ring
  rw [e]
  exact div_nonneg (by linarith) (by positivity)

theorem logI_near (l : ℕ) {w x y : ℝ} (h : Near w x y) (hw : w ≤ 1 / 20) :
    |Real.log (sphI l x) - Real.log (sphI l y)| ≤ (l + 21 / 20 * y) * w := by
  have hx := h.a0
  have hy := h.b0
  have ha := abs_le.1 (h.abs_sub hw)
  have hl := abs_le.1 h.le
  have hl0 : (0 : ℝ) ≤ l := Nat.cast_nonneg l
  rw [abs_le]
  rcases le_total x y with hxy | hxy
  · have h1 := logI_growth l hx hxy
    have h2 : sphI l x ≤ sphI l y := (sphI_mono_arg l).monotoneOn hx hy hxy
    have h2 := Real.log_le_log (sphI_pos l hx) h2
    constructor
    · nlinarith
    · nlinarith [h.w0]
  · have h1 := logI_growth l hy hxy
    have h2 : sphI l y ≤ sphI l x := (sphI_mono_arg l).monotoneOn hy hx hxy
    have h2 := Real.log_le_log (sphI_pos l hy) h2
    constructor
    · nlinarith [h.w0]
    · nlinarith

theorem logK_near (l : ℕ) {w x y : ℝ} (h : Near w x y) (hw : w ≤ 1 / 20) :
    |Real.log (sphK l x) - Real.log (sphK l y)| ≤ (l + 1 + 21 / 20 * y) * w := by
  have hx := h.a0
  have hy := h.b0
  have ha := abs_le.1 (h.abs_sub hw)
  have hl := abs_le.1 h.le
  have hl0 : (0 : ℝ) ≤ l := Nat.cast_nonneg l
  rw [abs_le]
  rcases le_total x y with hxy | hxy
  · have h1 := logK_growth l hx hxy
    have h2 : sphK l y ≤ sphK l x := (sphK_decay' l hx hxy).trans (by
      have := sphK_pos l hx
      have : Real.exp (-(y - x)) ≤ 1 := Real.exp_le_one_iff.2 (by linarith)
      nlinarith)
    have h2 := Real.log_le_log (sphK_pos l hy) h2
    constructor
    · nlinarith [h.w0]
    · nlinarith
  · have h1 := logK_growth l hy hxy
    have h2 : sphK l x ≤ sphK l y := (sphK_decay' l hy hxy).trans (by
      have := sphK_pos l hy
      have : Real.exp (-(x - y)) ≤ 1 := Real.exp_le_one_iff.2 (by linarith)
      nlinarith)
    have h2 := Real.log_le_log (sphK_pos l hx) h2
    constructor
    · nlinarith
    · nlinarith [h.w0]

/-! ## Rounded quantities -/

/-- The unit in which the errors of the Mie coefficients are given: `δ` for the Bessel functions, `Λ` for
`log(1 + (2l+1)/x)`. -/
noncomputable def mieEta (u δ Λ : ℝ) : ℝ := 5 * δ + 3 * u * Λ + 15 * u

namespace Spec.RelErrM

variable {A : FlMie} {u : ℝ} (hA : RelErrM A u)
include hA

theorem n_near {a : Medium} (ha : a.Pos) : Near (3 / 2 * (100 / 99 * u)) (A.n a) a.n := by
  have h := hA.near (mul_pos ha.1 ha.2) (hA.mul a.eps a.mu)
  have hs := h.sqrt
  have := (hA.near hs.a0 (by rw [abs_of_pos hs.a0]; exact hA.sqrt _ h.a0.le)).trans hs
  exact this.mono (by linarith)

theorem arg_near {k r : ℝ} (hk : 0 < k) (hr : 0 < r) {a : Medium} (ha : a.Pos) :
    Near (4 * u) (A.arg k r a) (k * r * a.n) := by
  have := hA.mul_near (hA.near (mul_pos hk hr) (hA.mul k r)) (hA.n_near ha)
  exact this.mono (by linarith [hA.u0])

theorem argPEC_near {k r : ℝ} (hk : 0 < k) (hr : 0 < r) {a : Medium} (ha : a.Pos) :
    Near (4 * u) (A.argPEC k r a) (k * r * a.n) := by
  have := hA.mul_near (hA.mul_near (hA.n_near ha) (Near.refl hk)) (Near.refl hr)
  rw [show a.n * k * r = k * r * a.n by ring] at this
  exact this.mono (by linarith [hA.u0])

theorem eta_facts {δ Λ : ℝ} (hδ : 0 ≤ δ) (hΛ : 0 ≤ Λ) : 15 * u ≤ mieEta u δ Λ := by
  have := mul_nonneg hA.u0 hΛ
  unfold mieEta; linarith

/-- the product `x exp(a - b)` -/
theorem prod_near {x x' a b p q δ Λ : ℝ} (hx : Near (4 * u) x' x) (ha : |a - p| ≤ δ) (hb : |b - q| ≤ δ)
    (hpq : |p - q| ≤ Λ + 4 * u) :
    Near (101 / 50 * δ + u * Λ + 21 / 10 * u) (A.mul x' (A.exp (A.sub a b))) (x' * Real.exp (p - q)) := by
  have hs := hA.sub_err ha hb hpq
  have := hA.mul_near (Near.refl hx.a0) (hA.exp_near hs)
  refine this.mono ?_
  nlinarith [hA.u0, hA.u1]

theorem idF_near {l : ℕ} (hl : 1 ≤ l) {x x' δ Λ : ℝ} (hx : Near (4 * u) x' x) {T : BesTable} (hT : TableErr T l x' δ)
    (hΛ : Real.log (1 + (2 * l + 1) / x) ≤ Λ) (hη : mieEta u δ Λ ≤ 1 / 100) :
    Near (mieEta u δ Λ) (A.idF l x' (T l x')) (idX l x) := by
  have hu := hA.u0
  have hx' := hx.a0
  have hδ : 0 ≤ δ := (abs_nonneg _).trans hT.i0
  have hL0 : 0 ≤ Real.log (1 + (2 * (l : ℝ) + 1) / x) := Real.log_nonneg (by
    have := hx.b0
    have : 0 ≤ (2 * (l : ℝ) + 1) / x := by positivity
    linarith)
  have hΛ0 : 0 ≤ Λ := hL0.trans hΛ
  have huL := mul_nonneg hu hΛ0
  have hp := hA.prod_near hx hT.i0 hT.i1
    ((log_ratioI hl hx').trans ((log_arg_near (by positivity) hx).trans (by linarith : _ ≤ Λ + 4 * u)))
  obtain ⟨w, hw⟩ : ∃ w, w = 101 / 50 * δ + u * Λ + 21 / 10 * u := ⟨_, rfl⟩
  rw [← hw] at hp
  have hw0 : 0 ≤ w := hp.w0
  unfold mieEta at hη ⊢
  have hab := hp.abs_sub (by linarith)
  rw [Real.exp_sub, Real.exp_log (sphI_pos _ hx'), Real.exp_log (sphI_pos _ hx')] at hab
  have hid := idX_gt hl hx'
  have hl0 : (0 : ℝ) ≤ l := Nat.cast_nonneg l
  have e : x' * (sphI (l - 1) x' / sphI l x') = idX l x' + l := by unfold idX; ring
  rw [e] at hab
  have hab2 : |A.mul x' (A.exp (A.sub (T l x').i0 (T l x').i1)) - (idX l x' + l)| ≤ 21 / 10 * w * idX l x' := by
    refine hab.trans ?_
    nlinarith
  have hs := hA.add_err (a := -(l : ℝ)) (a' := -(l : ℝ)) (s := 0) (m := idX l x') (by simp) hab2
    (by rw [show -(l : ℝ) + (idX l x' + l) = idX l x' by ring, abs_of_pos (by linarith)])
  rw [show -(l : ℝ) + (idX l x' + l) = idX l x' by ring] at hs
  have hrel : |A.idF l x' (T l x') - idX l x'| ≤ (22 / 10 * w + u) * idX l x' := by
    unfold FlMie.idF
    refine hs.trans ?_
    have : 0 ≤ w * idX l x' := mul_nonneg hw0 (by linarith)
    linarith
  have hd : 22 / 10 * w + u ≤ 1 / 50 := by rw [hw]; linarith
  have hn := Near.of_rel (by positivity) (by linarith) (by linarith : 0 < idX l x') hrel
  have hn2 : Near (51 / 50 * (22 / 10 * w + u)) (A.idF l x' (T l x')) (idX l x') := by
    refine hn.mono ?_
    rw [div_le_iff₀ (by linarith)]
    have : 0 ≤ 22 / 10 * w + u := by positivity
    nlinarith
  refine (hn2.trans (idX_near hl hx)).mono ?_
  rw [hw]
  nlinarith

theorem kdF_near {l : ℕ} (hl : 1 ≤ l) {x x' δ Λ : ℝ} (hx : Near (4 * u) x' x) {T : BesTable} (hT : TableErr T l x' δ)
    (hΛ : Real.log (1 + (2 * l + 1) / x) ≤ Λ) :
    Near (mieEta u δ Λ) (-A.kdF l x' (T l x')) (-kdX l x) := by
  have hu := hA.u0
  have hx' := hx.a0
  have hδ : 0 ≤ δ := (abs_nonneg _).trans hT.i0
  have hL0 : 0 ≤ Real.log (1 + (2 * (l : ℝ) + 1) / x) := Real.log_nonneg (by
    have := hx.b0
    have : 0 ≤ (2 * (l : ℝ) + 1) / x := by positivity
    linarith)
  have hΛ0 : 0 ≤ Λ := hL0.trans hΛ
  have huL := mul_nonneg hu hΛ0
  have hp := hA.prod_near hx hT.k0 hT.k1
    ((log_ratioK hl hx').trans ((log_arg_near (by positivity) hx).trans (by linarith : _ ≤ Λ + 4 * u)))
  rw [Real.exp_sub, Real.exp_log (sphK_pos _ hx'), Real.exp_log (sphK_pos _ hx')] at hp
  have hl0 : (0 : ℝ) < l := by exact_mod_cast hl
  have hsum := ((Near.refl hl0).mono hp.w0).add hp
  have hneg : |-A.kdF l x' (T l x') - (l + A.mul x' (A.exp (A.sub (T l x').k0 (T l x').k1)))| ≤
      u * |l + A.mul x' (A.exp (A.sub (T l x').k0 (T l x').k1))| := by
    have := hA.sub (-(l : ℝ)) (A.mul x' (A.exp (A.sub (T l x').k0 (T l x').k1)))
    rw [show -(l : ℝ) - A.mul x' (A.exp (A.sub (T l x').k0 (T l x').k1)) =
      -(l + A.mul x' (A.exp (A.sub (T l x').k0 (T l x').k1))) by ring, abs_neg] at this
    rw [← abs_neg]
    unfold FlMie.kdF
    refine le_of_eq_of_le (congrArg _ ?_) this
    ring
  have e : (l : ℝ) + x' * (sphK (l - 1) x' / sphK l x') = -kdX l x' := by unfold kdX; ring
  rw [e] at hsum
  refine (((hA.near hsum.a0 hneg).trans hsum).trans (kdX_near hl hx)).mono ?_
  unfold mieEta
  linarith

theorem mul_neg_near {w w' a b c d : ℝ} (h : Near w a b) (h' : Near w' (-c) d) :
    Near (w + w' + 100 / 99 * u) (-A.mul a c) (b * d) := by
  have hm : |-A.mul a c - a * -c| ≤ u * |a * -c| := by
    have := hA.mul a c
    rw [show -A.mul a c - a * -c = -(A.mul a c - a * c) by ring, abs_neg, mul_neg, abs_neg]
    exact this
  have := (hA.near (mul_pos h.a0 h'.a0) hm).trans (h.mul h')
  rwa [add_comm] at this

/-- a difference of two positive numbers of which the second one is given with the other sign -/
theorem sub_neg_near {w a b c d : ℝ} (h : Near w a b) (h' : Near w (-c) d) : Near (w + 100 / 99 * u) (A.sub a c) (b + d) := by
  have hm : |A.sub a c - (a + -c)| ≤ u * |a + -c| := by
    have := hA.sub a c
    rwa [sub_eq_add_neg a c] at this
  have := (hA.near (add_pos h.a0 h'.a0) hm).trans (h.add h')
  rwa [add_comm] at this

/-- The quotients of the Mie coefficients. -/
theorem quot_near {η N D N' D' P P' : ℝ} (hη : 15 * u ≤ η) (hη1 : η ≤ 1 / 100) (hD : Near (8 / 7 * η) D' D)
    (hN : |N' - N| ≤ 5 / 2 * η * D) (hN2 : |N| ≤ 2 * D) (hP : |P' - P| ≤ η / 2) (hP2 : |P| ≤ 8 / 5) :
    ∃ q, A.quot N' D' = .ok q ∧ |A.mul q P' - N / D * P| ≤ 10 * η := by
  have hu := hA.u0
  have hD0 := hD.b0
  have hD'0 := hD.a0
  have hη0 : 0 ≤ η := by linarith
  refine ⟨A.div N' D', by unfold FlMie.quot; rw [if_neg hD'0.ne'], ?_⟩
  have hDa := hD.abs_sub (by linarith)
  have hDl : 98 / 100 * D ≤ D' := by
    have := (abs_le.1 hDa).1
    nlinarith
  have e1 : |N' / D' - N / D| ≤ 51 / 10 * η := by
    have e : N' / D' - N / D = ((N' - N) * D - N * (D' - D)) / (D' * D) := by field_simp; ring
    rw [e, abs_div, abs_of_pos (mul_pos hD'0 hD0), div_le_iff₀ (mul_pos hD'0 hD0)]
    have h1 : |(N' - N) * D - N * (D' - D)| ≤ 5 / 2 * η * D * D + 2 * D * (21 / 20 * (8 / 7 * η) * D) := by
      refine (abs_sub _ _).trans ?_
      rw [abs_mul, abs_mul, abs_of_pos hD0]
      exact add_le_add (mul_le_mul_of_nonneg_right hN hD0.le) (mul_le_mul hN2 hDa (abs_nonneg _) (by positivity))
    refine h1.trans ?_
    have : 0 ≤ η * D := by positivity
    nlinarith [mul_nonneg this hD0.le, mul_le_mul_of_nonneg_left hDl this]
  have e0 : |N / D| ≤ 2 := by rw [abs_div, abs_of_pos hD0, div_le_iff₀ hD0]; exact hN2
  have e2 : |N' / D'| ≤ 2 + 51 / 10 * η := by
    have := abs_add_le (N' / D' - N / D) (N / D)
    rw [sub_add_cancel] at this; linarith
  have e3 : |A.div N' D' - N / D| ≤ 21 / 4 * η := by
    have h1 := hA.div N' D' hD'0.ne'
    have := abs_add_le (A.div N' D' - N' / D') (N' / D' - N / D)
    rw [sub_add_sub_cancel] at this
    have h2 := mul_le_mul_of_nonneg_left e2 hu
    nlinarith
  obtain ⟨q, hq⟩ : ∃ q, q = A.div N' D' := ⟨_, rfl⟩
  obtain ⟨t, ht⟩ : ∃ t, t = N / D := ⟨_, rfl⟩
  rw [← hq, ← ht] at e3
  rw [← ht] at e0
  rw [← hq, ← ht]
  have hq2 : |q| ≤ 2 + 21 / 4 * η := by
    have := abs_add_le (q - t) t
    rw [sub_add_cancel] at this; linarith
  have e4 : |q * P' - t * P| ≤ 95 / 10 * η := by
    have e : q * P' - t * P = q * (P' - P) + (q - t) * P := by ring
    rw [e]
    refine (abs_add_le _ _).trans ?_
    rw [abs_mul, abs_mul]
    have h1 := mul_le_mul hq2 hP (abs_nonneg _) (by positivity)
    have h2 := mul_le_mul e3 hP2 (abs_nonneg _) (by positivity)
    nlinarith
  have e5 : |t * P| ≤ 16 / 5 := by
    rw [abs_mul]
    have := mul_le_mul e0 hP2 (abs_nonneg _) (by norm_num)
    linarith
  have e6 : |q * P'| ≤ 33 / 10 := by
    have := abs_add_le (q * P' - t * P) (t * P)
    rw [sub_add_cancel] at this; linarith
  have h1 := hA.mul q P'
  have := abs_add_le (A.mul q P' - q * P') (q * P' - t * P)
  rw [sub_add_sub_cancel] at this
  have h2 := mul_le_mul_of_nonneg_left e6 hu
  linarith

theorem prefak_abs (l : ℕ) : |A.prefak l - (-1) ^ l * Real.pi * 0.5| ≤ 7 * u := by
  have hu := hA.u0
  have hu1 := hA.u1
  have s : |((-1 : ℝ) ^ l)| = 1 := by rw [abs_pow, abs_neg, abs_one, one_pow]
  have h1 := hA.mul ((-1) ^ l) A.pi
  have h2 := hA.mul (A.mul ((-1) ^ l) A.pi) 0.5
  have h3 := hA.pi
  have p1 := Real.pi_gt_three
  have p2 := Real.pi_lt_d2
  have hpi : |A.pi| ≤ 32 / 10 := by
    have := abs_add_le (A.pi - Real.pi) Real.pi
    rw [sub_add_cancel, abs_of_pos Real.pi_pos] at this
    nlinarith
  rw [abs_mul, s, one_mul] at h1
  have g1 : |A.mul ((-1) ^ l) A.pi - (-1) ^ l * Real.pi| ≤ 32 / 10 * u + 315 / 100 * u := by
    have := abs_add_le (A.mul ((-1) ^ l) A.pi - (-1) ^ l * A.pi) ((-1) ^ l * (A.pi - Real.pi))
    rw [abs_mul, s, one_mul] at this
    rw [show A.mul ((-1) ^ l) A.pi - (-1) ^ l * Real.pi = A.mul ((-1) ^ l) A.pi - (-1) ^ l * A.pi + (-1) ^ l * (A.pi - Real.pi) by ring]
    nlinarith
  have g2 : |A.mul ((-1) ^ l) A.pi| ≤ 33 / 10 := by
    have := abs_add_le (A.mul ((-1) ^ l) A.pi - (-1) ^ l * A.pi) ((-1) ^ l * A.pi)
    rw [sub_add_cancel, abs_mul ((-1) ^ l), s, one_mul] at this
    nlinarith
  rw [abs_mul, abs_of_pos (by norm_num : (0 : ℝ) < 0.5)] at h2
  have := abs_add_le (A.mul (A.mul ((-1) ^ l) A.pi) 0.5 - A.mul ((-1) ^ l) A.pi * 0.5)
    ((A.mul ((-1) ^ l) A.pi - (-1) ^ l * Real.pi) * 0.5)
  rw [abs_mul (A.mul ((-1) ^ l) A.pi - (-1) ^ l * Real.pi), abs_of_pos (by norm_num : (0 : ℝ) < 0.5)] at this
  unfold FlMie.prefak
  rw [show A.mul (A.mul ((-1) ^ l) A.pi) 0.5 - (-1) ^ l * Real.pi * 0.5 =
    A.mul (A.mul ((-1) ^ l) A.pi) 0.5 - A.mul ((-1) ^ l) A.pi * 0.5 + (A.mul ((-1) ^ l) A.pi - (-1) ^ l * Real.pi) * 0.5 by ring]
  nlinarith

theorem prefakInt_abs (l : ℕ) : |A.prefakInt l - (-1) ^ l * 2 / Real.pi| ≤ 3 * u := by
  have hu := hA.u0
  have hu1 := hA.u1
  have s : |((-1 : ℝ) ^ l)| = 1 := by rw [abs_pow, abs_neg, abs_one, one_pow]
  have p1 := Real.pi_gt_three
  have hp : 29 / 10 ≤ A.pi := by
    have := (abs_le.1 hA.pi).1
    nlinarith
  have hp0 : 0 < A.pi := by linarith
  have h1 := hA.div ((-1) ^ l * 2) A.pi hp0.ne'
  have e1 : |(-1) ^ l * 2 / A.pi| ≤ 7 / 10 := by
    rw [abs_div, abs_mul, s, one_mul, abs_two, abs_of_pos hp0, div_le_iff₀ hp0]
    linarith
  have e2 : |(-1) ^ l * 2 / A.pi - (-1) ^ l * 2 / Real.pi| ≤ 7 / 10 * u := by
    have e : (-1) ^ l * 2 / A.pi - (-1) ^ l * 2 / Real.pi = (-1) ^ l * 2 / A.pi * ((Real.pi - A.pi) / Real.pi) := by
      field_simp
    rw [e, abs_mul]
    refine mul_le_mul e1 ?_ (abs_nonneg _) (by norm_num)
    rw [abs_div, abs_of_pos Real.pi_pos, div_le_iff₀ Real.pi_pos, abs_sub_comm]
    exact hA.pi
  have := abs_add_le (A.div ((-1) ^ l * 2) A.pi - (-1) ^ l * 2 / A.pi) ((-1) ^ l * 2 / A.pi - (-1) ^ l * 2 / Real.pi)
  rw [sub_add_sub_cancel] at this
  unfold FlMie.prefakInt
  nlinarith

/-- The numerators and denominators of `mie`: weights `p`, `q`, the quantities `id_i`, `id_e`, `-kd_e`. -/
theorem channel {η p q i e kd i' e' kd' P P' : ℝ} (hp : 0 < p) (hq : 0 < q) (hη : 15 * u ≤ η) (hη1 : η ≤ 1 / 100)
    (hi : Near η i' i) (he : Near η e' e) (hk : Near η (-kd') (-kd)) (hek : e ≤ 2 * -kd) (hP : |P' - P| ≤ η / 2)
    (hP2 : |P| ≤ 8 / 5) :
    ∃ t, A.quot (A.sub (A.mul p i') (A.mul q e')) (A.sub (A.mul p i') (A.mul q kd')) = .ok t ∧
      |A.mul t P' - (p * i - q * e) / (p * i - q * kd) * P| ≤ 10 * η := by
  have hu := hA.u0
  have n1 := hA.mul_near (Near.refl hp) hi
  have n2 := hA.mul_near (Near.refl hq) he
  have n3 := hA.mul_neg_near (Near.refl hq) hk
  have hD := hA.sub_neg_near n1 n3
  have eD : p * i + q * -kd = p * i - q * kd := by ring
  rw [eD] at hD
  have hi0 := mul_pos hp hi.b0
  have he0 := mul_pos hq he.b0
  have hk0 := mul_pos hq hk.b0
  have hqe : q * e ≤ 2 * (q * -kd) := by nlinarith
  have a1 := n1.abs_sub (by linarith)
  have a2 := n2.abs_sub (by linarith)
  have hm : |p * i - q * e| ≤ p * i + q * e := by
    rw [abs_le]; constructor <;> linarith
  have hm2 : |p * i - q * e| ≤ 2 * (p * i - q * kd) := by
    rw [abs_le]; constructor <;> linarith
  have hN := hA.sub_err a1 a2 hm
  refine hA.quot_near hη hη1 (hD.mono (by linarith)) (hN.trans ?_) hm2 hP hP2
  have hs : p * i + q * e ≤ 2 * (p * i - q * kd) := by linarith
  have h1 : 101 / 100 * (21 / 20 * (0 + η + 100 / 99 * u) * (p * i) + 21 / 20 * (0 + η + 100 / 99 * u) * (q * e)) + u * (p * i + q * e)
      ≤ 5 / 4 * η * (p * i + q * e) := by
    have : 101 / 100 * (21 / 20 * (0 + η + 100 / 99 * u)) + u ≤ 5 / 4 * η := by linarith
    have := mul_le_mul_of_nonneg_right this (by linarith : 0 ≤ p * i + q * e)
    linarith
  refine h1.trans ?_
  have := mul_le_mul_of_nonneg_left hs (by linarith : 0 ≤ 5 / 4 * η)
  linarith

/-- The numerators and denominators of `mie_internal`. -/
theorem channelInt {η p q i f kd i' f' kd' P P' : ℝ} (hp : 0 < p) (hq : 0 < q) (hη : 15 * u ≤ η) (hη1 : η ≤ 1 / 100)
    (hi : Near η i' i) (hf : Near η (-f') (-f)) (hk : Near η (-kd') (-kd)) (hfi : -f ≤ i) (hP : |P' - P| ≤ η / 2)
    (hP2 : |P| ≤ 8 / 5) :
    ∃ t, A.quot (A.sub (A.mul p f') (A.mul q kd')) (A.sub (A.mul p i') (A.mul q kd')) = .ok t ∧
      |A.mul t P' - (p * f - q * kd) / (p * i - q * kd) * P| ≤ 10 * η := by
  have hu := hA.u0
  have n1 := hA.mul_near (Near.refl hp) hi
  have n2 := hA.mul_neg_near (Near.refl hp) hf
  have n3 := hA.mul_neg_near (Near.refl hq) hk
  have hD := hA.sub_neg_near n1 n3
  have eD : p * i + q * -kd = p * i - q * kd := by ring
  rw [eD] at hD
  have hi0 := mul_pos hp hi.b0
  have hf0 := mul_pos hp hf.b0
  have hk0 := mul_pos hq hk.b0
  have hpf : p * -f ≤ p * i := by nlinarith
  have a1 := n2.abs_sub (by linarith)
  have a2 := n3.abs_sub (by linarith)
  rw [show -A.mul p f' - p * -f = -(A.mul p f' - p * f) by ring, abs_neg] at a1
  rw [show -A.mul q kd' - q * -kd = -(A.mul q kd' - q * kd) by ring, abs_neg] at a2
  have hm : |p * f - q * kd| ≤ p * -f + q * -kd := by
    rw [abs_le]; constructor <;> linarith
  have hm2 : |p * f - q * kd| ≤ 2 * (p * i - q * kd) := by
    rw [abs_le]; constructor <;> linarith
  have hN := hA.sub_err a1 a2 hm
  refine hA.quot_near hη hη1 (hD.mono (by linarith)) (hN.trans ?_) hm2 hP hP2
  have hs : p * -f + q * -kd ≤ p * i - q * kd := by linarith
  have h1 : 101 / 100 * (21 / 20 * (0 + η + 100 / 99 * u) * (p * -f) + 21 / 20 * (0 + η + 100 / 99 * u) * (q * -kd)) +
      u * (p * -f + q * -kd) ≤ 5 / 4 * η * (p * -f + q * -kd) := by
    have : 101 / 100 * (21 / 20 * (0 + η + 100 / 99 * u)) + u ≤ 5 / 4 * η := by linarith
    have := mul_le_mul_of_nonneg_right this (by linarith : 0 ≤ p * -f + q * -kd)
    linarith
  refine h1.trans ?_
  have := mul_le_mul_of_nonneg_left hs (by linarith : 0 ≤ 5 / 4 * η)
  have : 0 ≤ η * (p * i - q * kd) := by
    have : 0 ≤ η := by linarith
    have := hD.b0
    positivity
  linarith

theorem ln_err {l : ℕ} {x x' δ I K : ℝ} (hx : Near (4 * u) x' x) (hI : |I - Real.log (sphI l x')| ≤ δ)
    (hK : |K - Real.log (sphK l x')| ≤ δ) :
    |A.sub I K - (Real.log (sphI l x) - Real.log (sphK l x))| ≤
      3 * δ + 9 * u * (l + 1 + x) + u * |Real.log (sphI l x) - Real.log (sphK l x)| := by
  have hu := hA.u0
  have hδ : 0 ≤ δ := (abs_nonneg _).trans hI
  have hw : 4 * u ≤ 1 / 20 := by linarith [hA.u1]
  have h1 := (abs_sub_le I _ _).trans (add_le_add hI (logI_near l hx hw))
  have h2 := (abs_sub_le K _ _).trans (add_le_add hK (logK_near l hx hw))
  refine (hA.sub_err h1 h2 le_rfl).trans ?_
  have : 0 ≤ u * l := by positivity
  have : 0 ≤ u * x := mul_nonneg hu hx.b0.le
  nlinarith

theorem ln_err' {l : ℕ} {x x' δ I K : ℝ} (hx : Near (4 * u) x' x) (hI : |I - Real.log (sphI l x')| ≤ δ)
    (hK : |K - Real.log (sphK l x')| ≤ δ) :
    |A.sub K I - (Real.log (sphK l x) - Real.log (sphI l x))| ≤
      3 * δ + 9 * u * (l + 1 + x) + u * |Real.log (sphK l x) - Real.log (sphI l x)| := by
  have hu := hA.u0
  have hδ : 0 ≤ δ := (abs_nonneg _).trans hI
  have hw : 4 * u ≤ 1 / 20 := by linarith [hA.u1]
  have h1 := (abs_sub_le I _ _).trans (add_le_add hI (logI_near l hx hw))
  have h2 := (abs_sub_le K _ _).trans (add_le_add hK (logK_near l hx hw))
  refine (hA.sub_err h2 h1 le_rfl).trans ?_
  have : 0 ≤ u * l := by positivity
  have : 0 ≤ u * x := mul_nonneg hu hx.b0.le
  nlinarith

theorem near_sign {s X Y : ℝ} (hs : |s| = 1) (h : |X - Y| ≤ u * |Y|) (h0 : 0 < s * Y) : Near (100 / 99 * u) (s * X) (s * Y) := by
  refine hA.near h0 ?_
  rw [← mul_sub, abs_mul, abs_mul, hs, one_mul, one_mul]
  exact h

theorem prefak_near (l : ℕ) : Near (5 * u) ((-1) ^ l * A.prefak l) (Real.pi * 0.5) := by
  have hu := hA.u0
  have hu1 := hA.u1
  have p1 := Real.pi_gt_three
  have s : |((-1 : ℝ) ^ l)| = 1 := by rw [abs_pow, abs_neg, abs_one, one_pow]
  have s2 : ((-1 : ℝ) ^ l) * (-1) ^ l = 1 := by rw [← mul_pow]; norm_num
  have h := hA.prefak_abs l
  have h' : |(-1) ^ l * A.prefak l - Real.pi * 0.5| ≤ 14 / 3 * u * (Real.pi * 0.5) := by
    rw [show (-1) ^ l * A.prefak l - Real.pi * 0.5 = (-1) ^ l * (A.prefak l - (-1) ^ l * Real.pi * 0.5) by
      linear_combination Real.pi * 0.5 * s2, abs_mul, s, one_mul]
    nlinarith
  refine (Near.of_rel (by positivity) (by linarith) (by positivity) h').mono ?_
  rw [div_le_iff₀ (by linarith)]
  nlinarith

theorem prefakInt_near (l : ℕ) : Near (6 * u) ((-1) ^ l * A.prefakInt l) (2 / Real.pi) := by
  have hu := hA.u0
  have hu1 := hA.u1
  have p1 := Real.pi_gt_three
  have p2 := Real.pi_lt_d2
  have s : |((-1 : ℝ) ^ l)| = 1 := by rw [abs_pow, abs_neg, abs_one, one_pow]
  have s2 : ((-1 : ℝ) ^ l) * (-1) ^ l = 1 := by rw [← mul_pow]; norm_num
  have h := hA.prefakInt_abs l
  have p3 : 3 / 5 ≤ 2 / Real.pi := by rw [div_le_div_iff₀ (by norm_num) Real.pi_pos]; linarith
  have h' : |(-1) ^ l * A.prefakInt l - 2 / Real.pi| ≤ 5 * u * (2 / Real.pi) := by
    rw [show (-1) ^ l * A.prefakInt l - 2 / Real.pi = (-1) ^ l * (A.prefakInt l - (-1) ^ l * 2 / Real.pi) by
      linear_combination 2 / Real.pi * s2, abs_mul, s, one_mul]
    nlinarith
  refine (Near.of_rel (by positivity) (by linarith) (by positivity) h').mono ?_
  rw [div_le_iff₀ (by linarith)]
  nlinarith

end Spec.RelErrM

/-- from a logarithmic to a relative error, for numbers of the sign `s` -/
theorem Near.abs_sign {w X Y y s : ℝ} (h : Near w (s * X) y) (hw : w ≤ 1 / 20) (hs : |s| = 1) (hY : s * Y = y) :
    |X - Y| ≤ 21 / 20 * w * |Y| := by
  have h1 := h.abs_sub hw
  rw [← hY, ← mul_sub, abs_mul, hs, one_mul] at h1
  have h2 : s * Y = |Y| := by
    have : 0 < s * Y := by rw [hY]; exact h.b0
    rw [← abs_of_pos this, abs_mul, hs, one_mul]
  rwa [h2] at h1

end CasSph
