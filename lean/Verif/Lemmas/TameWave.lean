import Verif.Lemmas.Tame
import Verif.Lemmas.PairValue

/-! # The logarithm of the determinant has a bounded derivative in the wavenumber -/

namespace CasSph

open Spec Filter Topology Matrix Set

variable {K : ℝ} {f : ℝ → ℝ}

/-! ## Bessel functions -/

/-- ratio of neighbouring functions of the first kind -/
noncomputable def ratI (l : ℕ) (x : ℝ) : ℝ := sphI (l + 1) x / sphI l x

theorem ratI_pos (l : ℕ) {x : ℝ} (hx : 0 < x) : 0 < ratI l x := div_pos (sphI_pos _ hx) (sphI_pos _ hx)
theorem ratI_lt (l : ℕ) {x : ℝ} (hx : 0 < x) : ratI l x < 1 := (div_lt_one (sphI_pos _ hx)).mpr (sphI_succ_lt l hx)
theorem ratI_le (l : ℕ) {x : ℝ} (hx : 0 < x) : ratI l x / x ≤ 1 := by
  have h0 := sphI_pos l hx
  have h2 := sphI_pos (l + 2) hx
  have h1 := sphI_pos (l + 1) hx
  have r := sphI_rec l hx.ne'
  have e : (2 * l + 3) / x * sphI (l + 1) x = (2 * l + 3) * (sphI (l + 1) x / x) := by ring
  have hp : 0 < sphI (l + 1) x / x := by positivity
  have hn : (0 : ℝ) ≤ l := by positivity
  unfold ratI
  rw [div_div, mul_comm, ← div_div, div_le_one h0]
  nlinarith

theorem ratI_cont (l : ℕ) {x : ℝ} (hx : 0 < x) : ContinuousAt (ratI l) x := (sphI_contAt _ hx).div (sphI_contAt _ hx) (sphI_pos _ hx).ne'

theorem idX_ratI {l : ℕ} (hl : 1 ≤ l) {x : ℝ} (hx : 0 < x) : idX l x = l + 1 + x * ratI l x := by
  obtain ⟨n, rfl⟩ : ∃ n, l = n + 1 := ⟨l - 1, by omega⟩
  have h0 := sphI_pos (n + 1) hx
  have r := sphI_rec' n x
  unfold idX ratI
  rw [Nat.add_sub_cancel]
  field_simp
  push_cast
  linear_combination r

theorem ratI_deriv (l : ℕ) {x : ℝ} (hx : 0 < x) : HasDerivAt (fun x => x * ratI l x) (x * (1 - ratI l x ^ 2) - (2 * l + 1) * ratI l x) x := by
  have h0 := sphI_pos l hx
  have h1 := sphI_pos (l + 1) hx
  have d := (hasDerivAt_id' x).fun_mul ((sphI_deriv (l + 1) hx).fun_div (sphI_deriv l hx) h0.ne')
  refine d.congr_deriv ?_
  rw [show l + 1 + 1 = l + 2 from rfl, sphI_rec l hx.ne']
  unfold ratI
  field_simp
  push_cast
  ring

/-- `idX` as a function of the square of the argument. -/
theorem Tame.idX_sqrt (hf : Tame K f) (hpos : ∀ k ∈ Ioo 0 K, 0 < f k) {l : ℕ} (hl : 1 ≤ l) : Tame K fun k => idX l (Real.sqrt (f k)) := by
  refine hf.comp hpos (φ := fun y => idX l (Real.sqrt y))
    (φ' := fun y => (1 - ratI l (Real.sqrt y) ^ 2) / 2 - (2 * l + 1) * (ratI l (Real.sqrt y) / Real.sqrt y) / 2) (fun y hy => ?_) (fun y hy => ?_) (fun X => ⟨l + 2, fun y hy _ => ?_⟩)
  · have hx := Real.sqrt_pos.mpr hy
    have d := (((ratI_deriv l hx).const_add ((l : ℝ) + 1)).comp y (Real.hasDerivAt_sqrt hy.ne')).congr_of_eventuallyEq (f₁ := fun y => idX l (Real.sqrt y)) ?_
    · refine d.congr_deriv ?_
      field_simp
    · filter_upwards [eventually_gt_nhds hy] with z hz
      simp only [Function.comp]
      rw [idX_ratI hl (Real.sqrt_pos.mpr hz)]
  · have hx := Real.sqrt_pos.mpr hy
    have c : ContinuousAt (fun y => ratI l (Real.sqrt y)) y := ContinuousAt.comp (g := ratI l) (ratI_cont l hx) Real.continuous_sqrt.continuousAt
    exact ((continuousAt_const.sub (c.pow 2)).div_const _).sub ((continuousAt_const.mul (c.div Real.continuous_sqrt.continuousAt hx.ne')).div_const _)
  · have hx := Real.sqrt_pos.mpr hy
    have a1 := ratI_pos l hx
    have a2 := ratI_lt l hx
    have a3 := ratI_le l hx
    have a4 : 0 ≤ ratI l (Real.sqrt y) / Real.sqrt y := by positivity
    have hn : (0 : ℝ) ≤ l := by positivity
    have a5 : ratI l (Real.sqrt y) ^ 2 ≤ 1 := by nlinarith
    have a6 := mul_le_mul_of_nonneg_left a3 (by positivity : (0 : ℝ) ≤ 2 * l + 1)
    have a7 : 0 ≤ (2 * (l : ℝ) + 1) * (ratI l (Real.sqrt y) / Real.sqrt y) := by positivity
    rw [abs_le]
    constructor <;> nlinarith [sq_nonneg (ratI l (Real.sqrt y))]

/-- `idX` as a function of the argument. -/
theorem Tame.idX_arg (hf : Tame K f) (hpos : ∀ k ∈ Ioo 0 K, 0 < f k) {l : ℕ} (hl : 1 ≤ l) : Tame K fun k => idX l (f k) :=
  ((hf.pow 2).idX_sqrt (fun k hk => pow_pos (hpos k hk) 2) hl).congr fun k hk => by rw [Real.sqrt_sq (hpos k hk).le]

theorem Tame.kdX_arg (hf : Tame K f) (hpos : ∀ k ∈ Ioo 0 K, 0 < f k) {l : ℕ} (hl : 1 ≤ l) : Tame K fun k => kdX l (f k) := by
  obtain ⟨n, rfl⟩ : ∃ n, l = n + 1 := ⟨l - 1, by omega⟩
  refine hf.comp hpos (φ := kdX (n + 1))
    (φ' := fun x => -(x * ((sphK n x / sphK (n + 1) x) ^ 2 - 1) + (2 * n + 3) * (sphK n x / sphK (n + 1) x))) (fun x hx => ?_) (fun x hx => ?_)
    (fun X => ⟨X + (2 * n + 3), fun x hx hX => ?_⟩)
  · have h0 := sphK_pos n hx
    have h1 := sphK_pos (n + 1) hx
    have d := ((hasDerivAt_id' x).fun_mul ((sphK_deriv n hx).fun_div (sphK_deriv (n + 1) hx) h1.ne')).const_sub (-((n + 1 : ℕ) : ℝ))
    refine d.congr_deriv ?_
    rw [show n + 1 + 1 = n + 2 from rfl, sphK_rec n hx.ne']
    field_simp
    push_cast
    ring
  · have c : ContinuousAt (fun x => sphK n x / sphK (n + 1) x) x := (sphK_contAt _ hx).div (sphK_contAt _ hx) (sphK_pos _ hx).ne'
    exact ((continuousAt_id.mul ((c.pow 2).sub continuousAt_const)).add (continuousAt_const.mul c)).neg
  · have a1 : 0 < sphK n x / sphK (n + 1) x := div_pos (sphK_pos _ hx) (sphK_pos _ hx)
    have a2 : sphK n x / sphK (n + 1) x ≤ 1 := (div_le_one (sphK_pos _ hx)).mpr (sphK_lt_succ n hx).le
    generalize sphK n x / sphK (n + 1) x = s at *
    have hn : (0 : ℝ) ≤ n := by positivity
    have s2 : s ^ 2 ≤ 1 := by nlinarith
    rw [abs_neg, abs_le]
    constructor
    · nlinarith [mul_nonneg hx.le (sq_nonneg s), mul_nonneg (by positivity : (0 : ℝ) ≤ 2 * n + 3) a1.le]
    · nlinarith [mul_nonneg hx.le (sub_nonneg.mpr s2), mul_le_mul_of_nonneg_left a2 (by positivity : (0 : ℝ) ≤ 2 * n + 3)]

theorem Tame.sphI_scaled (hf : Tame K f) (hpos : ∀ k ∈ Ioo 0 K, 0 < f k) (l : ℕ) : Tame K fun k => Real.log (sphI l (f k)) - l * Real.log (f k) := by
  refine hf.comp hpos (φ := fun x => Real.log (sphI l x) - l * Real.log x) (φ' := ratI l) (fun x hx => ?_) (fun x hx => ratI_cont l hx)
    (fun X => ⟨1, fun x hx _ => ?_⟩)
  · have h0 := sphI_pos l hx
    refine (((sphI_deriv l hx).log h0.ne').sub ((Real.hasDerivAt_log hx.ne').const_mul (l : ℝ))).congr_deriv ?_
    unfold ratI
    field_simp
    ring
  · rw [abs_of_pos (ratI_pos l hx)]; exact (ratI_lt l hx).le

theorem sphK_logder (p : ℕ) {x : ℝ} (hx : 0 < x) : |(2 * p + 1) / x - sphK (p + 1) x / sphK p x| ≤ 1 := by
  rcases p with _ | n
  · rw [sphK_one hx.ne', sphK_zero]
    have : Real.pi / 2 * Real.exp (-x) * (x + 1) / x ^ 2 / (Real.pi / 2 * Real.exp (-x) / x) = (x + 1) / x := by
      have := Real.exp_pos (-x)
      have := Real.pi_pos
      field_simp
    rw [this, ← sub_div]
    rw [show (2 * ((0 : ℕ) : ℝ) + 1 - (x + 1)) / x = -1 by field_simp; push_cast; ring]
    norm_num
  · have h1 := sphK_pos (n + 1) hx
    have h0 := sphK_pos n hx
    have hlt := sphK_lt_succ n hx
    have : (2 * ((n + 1 : ℕ) : ℝ) + 1) / x - sphK (n + 1 + 1) x / sphK (n + 1) x = -(sphK n x / sphK (n + 1) x) := by
      rw [show n + 1 + 1 = n + 2 from rfl, sphK_rec n hx.ne']
      field_simp
      push_cast
      ring
    rw [this, abs_neg, abs_of_pos (by positivity), div_le_one h1]
    exact hlt.le

theorem Tame.sphK_scaled (hf : Tame K f) (hpos : ∀ k ∈ Ioo 0 K, 0 < f k) (p : ℕ) :
    Tame K fun k => Real.log (sphK p (f k)) + (p + 1 : ℕ) * Real.log (f k) := by
  refine hf.comp hpos (φ := fun x => Real.log (sphK p x) + (p + 1 : ℕ) * Real.log x) (φ' := fun x => (2 * p + 1) / x - sphK (p + 1) x / sphK p x)
    (fun x hx => ?_) (fun x hx => ?_) (fun X => ⟨1, fun x hx _ => sphK_logder p hx⟩)
  · have h0 := sphK_pos p hx
    refine (((sphK_deriv p hx).log h0.ne').add ((Real.hasDerivAt_log hx.ne').const_mul ((p + 1 : ℕ) : ℝ))).congr_deriv ?_
    push_cast
    field_simp
    ring
  · exact (continuousAt_const.div continuousAt_id hx.ne').sub ((sphK_contAt _ hx).div (sphK_contAt _ hx) (sphK_pos _ hx).ne')


/-! ## Materials -/

/-- Non-negative, with a derivative of at most a multiple of the square. -/
def SqDer (K : ℝ) (e : ℝ → ℝ) : Prop :=
  ∃ e' : ℝ → ℝ, (∀ k ∈ Ioo 0 K, HasDerivAt e (e' k) k) ∧ ContinuousOn e' (Ioo 0 K) ∧ (∀ k ∈ Ioo 0 K, 0 ≤ e k) ∧ ∃ C, 0 ≤ C ∧ ∀ k ∈ Ioo 0 K, |e' k| ≤ C * e k ^ 2

theorem SqDer.add {e g : ℝ → ℝ} (he : SqDer K e) (hg : SqDer K g) : SqDer K fun k => e k + g k := by
  obtain ⟨e', a1, a2, a3, A, A0, a4⟩ := he
  obtain ⟨g', b1, b2, b3, B, B0, b4⟩ := hg
  refine ⟨fun k => e' k + g' k, fun k hk => (a1 k hk).fun_add (b1 k hk), a2.add b2, fun k hk => add_nonneg (a3 k hk) (b3 k hk), A + B, by positivity, fun k hk => ?_⟩
  have h1 := a3 k hk
  have h2 := b3 k hk
  have h3 := a4 k hk
  have h4 := b4 k hk
  refine (abs_add_le _ _).trans ?_
  have e1 : A * e k ^ 2 ≤ A * (e k + g k) ^ 2 := mul_le_mul_of_nonneg_left (pow_le_pow_left₀ h1 (by linarith) 2) A0
  have e2 : B * g k ^ 2 ≤ B * (e k + g k) ^ 2 := mul_le_mul_of_nonneg_left (pow_le_pow_left₀ h2 (by linarith) 2) B0
  linarith

theorem SqDer.zero : SqDer K fun _ => 0 :=
  ⟨fun _ => 0, fun k _ => hasDerivAt_const k 0, continuousOn_const, fun _ _ => le_rfl, 0, le_rfl, fun _ _ => by simp⟩

theorem SqDer.congr {e g : ℝ → ℝ} (h : SqDer K e) (q : ∀ k ∈ Ioo 0 K, g k = e k) : SqDer K g := by
  obtain ⟨e', h1, h2, h3, C, C0, h4⟩ := h
  exact ⟨e', fun k hk => (h1 k hk).congr_of_eventuallyEq (mem_of_superset (isOpen_Ioo.mem_nhds hk) q), h2,
    fun k hk => by rw [q k hk]; exact h3 k hk, C, C0, fun k hk => by rw [q k hk]; exact h4 k hk⟩

theorem SqDer.inv {e : ℝ → ℝ} (h : SqDer K e) : Tame K fun k => (1 + e k)⁻¹ := by
  obtain ⟨e', h1, h2, h3, C, C0, h4⟩ := h
  have hc : ContinuousOn e (Ioo 0 K) := fun k hk => (h1 k hk).continuousAt.continuousWithinAt
  refine ⟨fun k => -e' k / (1 + e k) ^ 2, fun k hk => ((h1 k hk).const_add 1).fun_inv (by linarith [h3 k hk]),
    h2.neg.div ((continuousOn_const.add hc).pow 2) fun k hk => by have := h3 k hk; positivity, C, fun k hk => ?_⟩
  have h5 := h3 k hk
  rw [abs_div, abs_neg, abs_of_pos (by positivity : 0 < (1 + e k) ^ 2), div_le_iff₀ (by positivity)]
  exact (h4 k hk).trans (mul_le_mul_of_nonneg_left (pow_le_pow_left₀ h5 (by linarith) 2) C0)

theorem lorT_deriv {k : ℝ} (hk : 0 < k) {p : Osc} (hp : p.nonneg) :
    HasDerivAt (fun k => lorT k p) (-((p.wP / omegaNorm) ^ 2 * (2 * k + p.gamma / omegaNorm)) / ((p.wR / omegaNorm) ^ 2 + k ^ 2 + p.gamma / omegaNorm * k) ^ 2) k := by
  have d := lorDen_pos hk hp
  have q : HasDerivAt (fun k => (p.wR / omegaNorm) ^ 2 + k ^ 2 + p.gamma / omegaNorm * k) (2 * k + p.gamma / omegaNorm) k := by
    have := (((hasDerivAt_pow 2 k).const_add ((p.wR / omegaNorm) ^ 2)).fun_add ((hasDerivAt_id' k).const_mul (p.gamma / omegaNorm)))
    simpa using this
  have := (hasDerivAt_const k ((p.wP / omegaNorm) ^ 2)).fun_div q d.ne'
  unfold lorT
  refine this.congr_deriv ?_
  ring

theorem lorT_cont_aux {p : Osc} (hp : p.nonneg) {a : ℝ → ℝ} (ha : Continuous a) :
    ContinuousOn (fun k => a k / ((p.wR / omegaNorm) ^ 2 + k ^ 2 + p.gamma / omegaNorm * k) ^ 2) (Ioo 0 K) :=
  ContinuousOn.div ha.continuousOn (by fun_prop) fun k hk => (pow_pos (lorDen_pos hk.1 hp) 2).ne'

theorem lorT_sqDer {p : Osc} (hp : p.nonneg) : SqDer K fun k => lorT k p := by
  have g0 : 0 ≤ p.gamma / omegaNorm := div_nonneg hp.2 omegaNorm_pos.le
  refine ⟨_, fun k hk => lorT_deriv hk.1 hp, lorT_cont_aux hp (by fun_prop), fun k hk => div_nonneg (sq_nonneg _) (lorDen_pos hk.1 hp).le,
    (2 * |K| + p.gamma / omegaNorm) / (p.wP / omegaNorm) ^ 2, by positivity, fun k hk => ?_⟩
  have d := lorDen_pos hk.1 hp
  have hk0 := hk.1
  have hkK := hk.2.trans_le (le_abs_self K)
  rw [abs_div, abs_neg, abs_of_nonneg (by positivity : 0 ≤ (p.wP / omegaNorm) ^ 2 * (2 * k + p.gamma / omegaNorm)), abs_of_pos (pow_pos d 2)]
  simp only [lorT]
  rw [div_pow _ ((p.wR / omegaNorm) ^ 2 + k ^ 2 + p.gamma / omegaNorm * k), mul_div_assoc']
  refine div_le_div_of_nonneg_right ?_ (by positivity)
  by_cases hw : p.wP / omegaNorm = 0
  · rw [hw]; simp
  · rw [div_mul_eq_mul_div, le_div_iff₀ (by positivity)]
    have : 2 * k + p.gamma / omegaNorm ≤ 2 * |K| + p.gamma / omegaNorm := by linarith
    have := mul_le_mul_of_nonneg_left this (by positivity : 0 ≤ ((p.wP / omegaNorm) ^ 2) ^ 2)
    nlinarith

theorem lorT_sq_tame {p : Osc} (hp : p.nonneg) : Tame K fun k => k ^ 2 * lorT k p := by
  have o := omegaNorm_pos
  have g0 : 0 ≤ p.gamma / omegaNorm := div_nonneg hp.2 o.le
  have r0 : 0 ≤ p.wR / omegaNorm := div_nonneg hp.1 o.le
  generalize hR : p.wR / omegaNorm = R at *
  generalize hG : p.gamma / omegaNorm = G at *
  generalize hW : p.wP / omegaNorm = W at *
  have hD : ∀ k, 0 < k → 0 < R ^ 2 + k ^ 2 + G * k := fun k hk => by positivity
  have key : Tame K fun k => W ^ 2 * (k ^ 2 / (R ^ 2 + k ^ 2 + G * k)) := by
    refine Tame.const_mul _ ⟨fun k => (2 * k * R ^ 2 + G * k ^ 2) / (R ^ 2 + k ^ 2 + G * k) ^ 2, fun k hk => ?_,
      ContinuousOn.div (by fun_prop) (by fun_prop) fun k hk => (pow_pos (hD k hk.1) 2).ne', 2 * |K| / R ^ 2 + 1 / G, fun k hk => ?_⟩
    · have q : HasDerivAt (fun k => R ^ 2 + k ^ 2 + G * k) (2 * k + G) k := by
        have := (((hasDerivAt_pow 2 k).const_add (R ^ 2)).fun_add ((hasDerivAt_id' k).const_mul G))
        simpa using this
      refine ((hasDerivAt_pow 2 k).fun_div q (hD k hk.1).ne').congr_deriv ?_
      congr 1
      push_cast
      ring
    · have hk0 := hk.1
      have hkK := hk.2.trans_le (le_abs_self K)
      have d := hD k hk0
      simp only
      rw [abs_of_nonneg (by positivity), add_div]
      refine add_le_add ?_ ?_
      · rcases r0.eq_or_lt with e | e
        · rw [← e]; simp
        · rw [div_le_div_iff₀ (by positivity) (by positivity)]
          have h1 : R ^ 2 * R ^ 2 ≤ (R ^ 2 + k ^ 2 + G * k) ^ 2 := by
            rw [sq (R ^ 2 + k ^ 2 + G * k)]
            have : R ^ 2 ≤ R ^ 2 + k ^ 2 + G * k := by nlinarith [sq_nonneg k, mul_nonneg g0 hk0.le]
            exact mul_le_mul this this (by positivity) d.le
          calc 2 * k * R ^ 2 * R ^ 2 = 2 * k * (R ^ 2 * R ^ 2) := by ring
            _ ≤ 2 * |K| * (R ^ 2 + k ^ 2 + G * k) ^ 2 := mul_le_mul (by linarith) h1 (by positivity) (by positivity)
      · rcases g0.eq_or_lt with e | e
        · rw [← e]; simp
        · rw [div_le_div_iff₀ (by positivity) (by positivity)]
          have h1 : (G * k) * (G * k) ≤ (R ^ 2 + k ^ 2 + G * k) ^ 2 := by
            rw [sq (R ^ 2 + k ^ 2 + G * k)]
            have : G * k ≤ R ^ 2 + k ^ 2 + G * k := by nlinarith [sq_nonneg k, sq_nonneg R]
            exact mul_le_mul this this (by positivity) d.le
          linarith
  refine key.congr fun k _ => ?_
  unfold lorT
  rw [hR, hG, hW]
  ring

/-- The reciprocal permittivity and `k² ε` are tame. -/
theorem eps_tame {M : Material} (hM : M.cls ≠ .pec) (hp : M.Physical) : (Tame K fun k => (M.epsV k)⁻¹) ∧ Tame K fun k => k ^ 2 * M.epsV k := by
  cases hc : M.cls with
  | pec => exact absurd hc hM
  | lorentz =>
    have s : ∀ l : List Osc, (∀ p ∈ l, p.nonneg) → SqDer K fun k => (l.map (lorT k)).sum := by
      intro l
      induction l with
      | nil => intro _; simpa using SqDer.zero
      | cons p l ih =>
        intro hl
        exact ((lorT_sqDer (hl p (by simp))).add (ih fun q hq => hl q (by simp [hq]))).congr fun k _ => by simp
    constructor
    · exact (s M.e fun p hpm => hp.osc p hpm).inv.congr fun k hk => by rw [epsV_lorentz hc hp hk.1]
    · refine ((Tame.id.pow 2).add (Tame.listSum (F := fun p k => k ^ 2 * lorT k p) M.e fun p hpm => lorT_sq_tame (hp.osc p hpm))).congr fun k hk => ?_
      rw [epsV_lorentz hc hp hk.1, mul_add, mul_one, List.sum_map_mul_left]
  | smith =>
    obtain ⟨p, hpe⟩ := List.length_eq_one_iff.1 (hp.one hc)
    have hg : 0 ≤ p.gamma / omegaNorm := div_nonneg (hp.osc p (by simp [hpe])).2 omegaNorm_pos.le
    have val := fun k (hk : 0 < k) => smith_val hc hp hpe hk
    generalize p.gamma / omegaNorm = G at *
    generalize p.wP / omegaNorm = W at *
    have e1 : ∀ k, 0 < k → M.epsV k = 1 + W ^ 2 * (k + 0.51 * G) / (k * (k + G) ^ 2) := by
      intro k hk
      have : 0 < k + G := by linarith
      have : 0 < k ^ 2 + G * k := by positivity
      rw [val k hk]
      field_simp
      ring
    constructor
    · have sd : SqDer K fun k => W ^ 2 * (k + 0.51 * G) / (k * (k + G) ^ 2) := by
        refine ⟨fun k => W ^ 2 * (k * (k + G) - (k + 0.51 * G) * (3 * k + G)) / (k ^ 2 * (k + G) ^ 3), fun k hk => ?_,
          ContinuousOn.div (by fun_prop) (by fun_prop) fun k hk => ?_, fun k hk => ?_, 8 * (|K| + G) / W ^ 2, by positivity, fun k hk => ?_⟩
        · have hk0 := hk.1
          have h1 : 0 < k + G := by linarith
          have q : HasDerivAt (fun k => k * (k + G) ^ 2) ((k + G) * (3 * k + G)) k := by
            have := (hasDerivAt_id' k).fun_mul (((hasDerivAt_id' k).add_const G).fun_pow 2)
            refine this.congr_deriv ?_
            push_cast
            ring
          have q0 : HasDerivAt (fun k => W ^ 2 * (k + 0.51 * G)) (W ^ 2) k := by
            simpa using ((hasDerivAt_id' k).add_const (0.51 * G)).const_mul (W ^ 2)
          refine (q0.fun_div q (by positivity)).congr_deriv ?_
          field_simp
        · have hk0 := hk.1
          have h1 : 0 < k + G := by linarith
          positivity
        · have hk0 := hk.1
          have h1 : 0 < k + G := by linarith
          positivity
        · have hk0 := hk.1
          have hkK := hk.2.trans_le (le_abs_self K)
          have h1 : 0 < k + G := by linarith
          by_cases hw : W = 0
          · rw [hw]; simp
          · have e2 : 8 * (|K| + G) / W ^ 2 * (W ^ 2 * (k + 0.51 * G) / (k * (k + G) ^ 2)) ^ 2 =
                W ^ 2 * (8 * (|K| + G) * (k + 0.51 * G) ^ 2 / (k + G)) / (k ^ 2 * (k + G) ^ 3) := by
              field_simp
            rw [e2, abs_div, abs_of_pos (by positivity : 0 < k ^ 2 * (k + G) ^ 3), abs_mul, abs_of_nonneg (sq_nonneg W)]
            refine div_le_div_of_nonneg_right (mul_le_mul_of_nonneg_left ?_ (sq_nonneg W)) (by positivity)
            have h2 : 8 * (k + 0.51 * G) ^ 2 ≤ 8 * (|K| + G) * (k + 0.51 * G) ^ 2 / (k + G) := by
              rw [le_div_iff₀ h1]
              have := mul_le_mul_of_nonneg_left (by linarith : k + G ≤ |K| + G) (by positivity : 0 ≤ 8 * (k + 0.51 * G) ^ 2)
              linarith
            refine le_trans ?_ h2
            have kg : 0 ≤ k * G := by positivity
            rw [abs_le]
            constructor <;> nlinarith [sq_nonneg k, sq_nonneg G]
      exact sd.inv.congr fun k hk => by rw [e1 k hk.1]
    · have ht : Tame K fun k => k * (k + 0.51 * G) / (k + G) ^ 2 := by
        rcases hg.eq_or_lt with e | e
        · refine (Tame.const 1).congr fun k hk => ?_
          have := hk.1
          rw [← e]
          field_simp
          ring
        · exact (Tame.id.mul (Tame.id.add (Tame.const _))).div ((Tame.id.add (Tame.const G)).pow 2) (pow_pos e 2)
            fun k hk => pow_le_pow_left₀ e.le (by linarith [hk.1]) 2
      refine ((Tame.id.pow 2).add (ht.const_mul (W ^ 2))).congr fun k hk => ?_
      have hk0 := hk.1
      have h1 : 0 < k + G := by linarith
      rw [e1 k hk0]
      field_simp

theorem medium_tame {md : Material} (h : MediumMat md) : Tame K md.epsV := by
  obtain ⟨hc, hr⟩ := h.diel
  have t : ∀ p ∈ md.e, Tame K fun k => lorT k p := by
    intro p hp
    have hn := h.phys.osc p hp
    have o := omegaNorm_pos
    have g0 : 0 ≤ p.gamma / omegaNorm := div_nonneg hn.2 o.le
    have r0 : 0 < p.wR / omegaNorm := div_pos (hr p hp) o
    unfold lorT
    refine (Tame.const _).div (g := fun k => (p.wR / omegaNorm) ^ 2 + k ^ 2 + p.gamma / omegaNorm * k) (((Tame.const _).add (Tame.id.pow 2)).add (Tame.id.const_mul _))
      (pow_pos r0 2) fun k hk => ?_
    have := hk.1
    have : 0 ≤ k ^ 2 + p.gamma / omegaNorm * k := by positivity
    linarith
  exact ((Tame.const 1).add (Tame.listSum (F := fun p k => lorT k p) md.e t)).congr fun k hk => epsV_lorentz hc h.phys hk.1


/-! ## Mie coefficients -/

theorem nLV_tame {md : Material} (h : MediumMat md) (L : ℝ) : (Tame K fun k => L * Real.sqrt (md.epsV k)) ∧ Tame K (nLV md L) := by
  have s : Tame K fun k => Real.sqrt (md.epsV k) := (medium_tame h).sqrt one_pos fun k hk => h.one_le hk.1
  exact ⟨s.const_mul L, ((Tame.id.mul (Tame.const L)).mul s).congr fun k _ => rfl⟩

theorem argV_nLV {md : Material} (h : md.b = none) (r k : ℝ) : argV md r k = nLV md r k := argV_none h r k

theorem Tame.mieLn {md : Material} (h : MediumMat md) {r : ℝ} (hr : 0 < r) (l : ℕ) :
    Tame K fun k => Real.exp (Real.log (sphI l (argV md r k)) - Real.log (sphK l (argV md r k))) / k ^ (2 * l + 1) := by
  obtain ⟨s1, s2⟩ := nLV_tame (K := K) h r
  have hpos : ∀ k ∈ Ioo 0 K, 0 < nLV md r k := fun k hk => nLV_pos h.cls h.phys hr hk.1
  refine (((s2.sphI_scaled hpos l).sub (s2.sphK_scaled hpos l)).exp.mul (s1.pow (2 * l + 1))).congr fun k hk => ?_
  have hx := hpos k hk
  have hk0 := hk.1
  rw [argV_nLV h.mag]
  have e : nLV md r k = k * (r * Real.sqrt (md.epsV k)) := by unfold nLV; ring
  have e2 : (r * Real.sqrt (md.epsV k)) ^ (2 * l + 1) = nLV md r k ^ (2 * l + 1) / k ^ (2 * l + 1) := by
    rw [e, mul_pow k, mul_div_cancel_left₀ _ (pow_pos hk0 _).ne']
  have e3 : nLV md r k ^ (2 * l + 1) = Real.exp ((2 * l + 1 : ℕ) * Real.log (nLV md r k)) := by
    rw [Real.exp_nat_mul, Real.exp_log hx]
  rw [e2, ← mul_div_assoc, e3, ← Real.exp_add]
  congr 2
  push_cast
  ring

theorem mie_tame {m md : Material} (hs : SphereMat m) (h : MediumMat md) {r : ℝ} (hr : 0 < r) {l : ℕ} (hl : 1 ≤ l) :
    (Tame K fun k => (mieV m md r l k).TE * Real.exp (mieV m md r l k).ln / k ^ (2 * l + 1)) ∧
      Tame K fun k => (mieV m md r l k).TM * Real.exp (mieV m md r l k).ln / k ^ (2 * l + 1) := by
  have t0 := Tame.mieLn (K := K) h hr l
  have s2 := (nLV_tame (K := K) h r).2
  have hpos : ∀ k ∈ Ioo 0 K, 0 < argV md r k := fun k hk => argV_pos h.cls h.phys hr hk.1
  have sa : Tame K (argV md r) := s2.congr fun k _ => argV_nLV h.mag r k
  have I2 := sa.idX_arg hpos hl
  have K2 := sa.kdX_arg hpos hl
  have hl1 : (1 : ℝ) ≤ l := by exact_mod_cast hl
  have kl : ∀ k ∈ Ioo 0 K, kdX l (argV md r k) ≤ -l := by
    intro k hk
    have hx := hpos k hk
    have := div_pos (sphK_pos (l - 1) hx) (sphK_pos l hx)
    unfold kdX
    have : 0 < argV md r k * (sphK (l - 1) (argV md r k) / sphK l (argV md r k)) := by positivity
    linarith
  by_cases hm : m.cls = .pec
  · constructor
    · refine (t0.const_mul ((-1) ^ l * Real.pi * 0.5)).congr fun k hk => ?_
      rw [mieV_pec hm h.cls h.phys hr hl hk.1, mul_div_assoc]
    · refine ((((I2.const_mul ((-1) ^ l * Real.pi * 0.5)).div K2.neg (c := 1) one_pos fun k hk => ?_).neg).mul t0).congr fun k hk => ?_
      · linarith [kl k hk]
      · rw [mieV_pec hm h.cls h.phys hr hl hk.1, mul_div_assoc, div_neg, neg_neg]
  · obtain ⟨u1, u2⟩ := eps_tame (K := K) hm hs.phys
    have I1 : Tame K fun k => idX l (argV m r k) := by
      refine ((u2.const_mul (r ^ 2)).idX_sqrt (fun k hk => ?_) hl).congr fun k hk => ?_
      · have := hk.1
        have := (medium_val hm hs.phys hk.1).2
        positivity
      · have hk0 := hk.1
        rw [argV_none hs.mag, show r ^ 2 * (k ^ 2 * m.epsV k) = (k * r) ^ 2 * m.epsV k by ring, Real.sqrt_mul (by positivity), Real.sqrt_sq (by positivity)]
    have i1 : ∀ k ∈ Ioo 0 K, (l : ℝ) + 1 < idX l (argV m r k) := fun k hk => idX_gt hl (argV_pos hm hs.phys hr hk.1)
    have u := (medium_tame (K := K) h).mul u1
    have up : ∀ k ∈ Ioo 0 K, 0 < m.epsV k ∧ 0 < md.epsV k := fun k hk => ⟨(medium_val hm hs.phys hk.1).2, (medium_val h.cls h.phys hk.1).2⟩
    constructor
    · refine ((((I1.sub I2).div (I1.sub K2) (c := 1) one_pos fun k hk => ?_).mul (Tame.const ((-1) ^ l * Real.pi * 0.5))).mul t0).congr fun k hk => ?_
      · linarith [kl k hk, i1 k hk]
      · rw [mieV_diel hm h.cls hs.phys h.phys hr hl hk.1, mul_div_assoc]
        simp only
        rw [muV_of_none h.mag, muV_of_none hs.mag, one_mul, one_mul, one_mul]
    · refine (((((u.mul I1).sub I2).div ((u.mul I1).sub K2) (c := 1) one_pos fun k hk => ?_).mul (Tame.const ((-1) ^ l * Real.pi * 0.5))).mul t0).congr
        fun k hk => ?_
      · obtain ⟨q1, q2⟩ := up k hk
        have q3 := i1 k hk
        have : 0 ≤ md.epsV k * (m.epsV k)⁻¹ * idX l (argV m r k) := by
          have : 0 < idX l (argV m r k) := by linarith
          positivity
        linarith [kl k hk]
      · obtain ⟨q1, q2⟩ := up k hk
        have q3 := i1 k hk
        have q4 := kl k hk
        have q5 : 0 < md.epsV k * (m.epsV k)⁻¹ * idX l (argV m r k) - kdX l (argV md r k) := by
          have : 0 < idX l (argV m r k) := by linarith
          have : 0 < md.epsV k * (m.epsV k)⁻¹ * idX l (argV m r k) := by positivity
          linarith
        rw [mieV_diel hm h.cls hs.phys h.phys hr hl hk.1, mul_div_assoc]
        simp only
        congr 2
        have e : md.epsV k * idX l (argV m r k) - m.epsV k * kdX l (argV md r k) =
            m.epsV k * (md.epsV k * (m.epsV k)⁻¹ * idX l (argV m r k) - kdX l (argV md r k)) := by field_simp
        have e' : md.epsV k * idX l (argV m r k) - m.epsV k * idX l (argV md r k) =
            m.epsV k * (md.epsV k * (m.epsV k)⁻¹ * idX l (argV m r k) - idX l (argV md r k)) := by field_simp
        rw [e, e', mul_div_mul_left _ _ q1.ne']

/-! ## Translation coefficients -/

theorem besV_get {md : Material} {L : ℝ} {N p : ℕ} (hp : p < N) (k : ℝ) : (besV md L N k).getD p 0 = lnk1 (nLV md L k) p := by
  unfold besV
  rw [List.getD_eq_getElem?_getD, List.getElem?_map, List.getElem?_range hp]
  rfl

theorem vCommon_tame {md : Material} (h : MediumMat md) {L : ℝ} (hL : 0 < L) {N l1 l2 : ℕ} (hN : l1 + l2 < N) (m : ℤ) {i : ℕ} (hi : i < min l1 l2 + 1) :
    Tame K fun k => k ^ (l1 + l2 + 1) * (vCommon true m (besV md L N k) l1 l2 i * Real.exp (besNorm true (besV md L N k) l1 l2)) := by
  obtain ⟨s1, s2⟩ := nLV_tame (K := K) h L
  have hpos : ∀ k ∈ Ioo 0 K, 0 < nLV md L k := fun k hk => nLV_pos h.cls h.phys hL hk.1
  have hle := lppMin_le l1 l2
  set p := lppMin l1 l2 + 2 * i with hp
  have hpl : p ≤ l1 + l2 := by omega
  have low : ∀ k ∈ Ioo 0 K, L ≤ L * Real.sqrt (md.epsV k) := fun k hk => by
    have : 1 ≤ Real.sqrt (md.epsV k) := Real.one_le_sqrt.mpr (h.one_le hk.1)
    nlinarith
  refine ((((s2.sphK_scaled hpos p).exp.mul ((s1.inv hL low).pow (p + 1))).mul (Tame.id.pow (l1 + l2 - p))).mul
    (Tame.const (gnt l1 l2 m i * commonFac true m l1 l2 p))).congr fun k hk => ?_
  have hx := hpos k hk
  have hk0 := hk.1
  have e1 : Real.exp ((besV md L N k).getD p 0 - besNorm true (besV md L N k) l1 l2) * Real.exp (besNorm true (besV md L N k) l1 l2) = sphK p (nLV md L k) := by
    rw [← Real.exp_add, sub_add_cancel, besV_get (by omega), exp_lnk1 hx]
  have e2 : Real.exp (Real.log (sphK p (nLV md L k)) + (p + 1 : ℕ) * Real.log (nLV md L k)) = sphK p (nLV md L k) * nLV md L k ^ (p + 1) := by
    rw [Real.exp_add, Real.exp_log (sphK_pos p hx), Real.exp_nat_mul, Real.exp_log hx]
  have e3 : nLV md L k = k * (L * Real.sqrt (md.epsV k)) := by unfold nLV; ring
  have e4 : 0 < L * Real.sqrt (md.epsV k) := hL.trans_le (low k hk)
  have e5 : k ^ (l1 + l2 + 1) = k ^ (l1 + l2 - p) * k ^ (p + 1) := by rw [← pow_add]; congr 1; omega
  have e6 : nLV md L k ^ (p + 1) * (L * Real.sqrt (md.epsV k))⁻¹ ^ (p + 1) = k ^ (p + 1) := by
    rw [← mul_pow, e3, mul_assoc, mul_inv_cancel₀ e4.ne', mul_one]
  rw [e2, e5]
  unfold vCommon
  rw [← hp]
  linear_combination (k ^ (l1 + l2 - p) * k ^ (p + 1) * gnt l1 l2 m i * commonFac true m l1 l2 p) * e1 -
    (sphK p (nLV md L k) * k ^ (l1 + l2 - p) * gnt l1 l2 m i * commonFac true m l1 l2 p) * e6

theorem vVal_tame {md : Material} (h : MediumMat md) {L : ℝ} (hL : 0 < L) {N l1 l2 : ℕ} (hN : l1 + l2 < N) (m : ℤ) :
    (Tame K fun k => k ^ (l1 + l2 + 1) * ((vVal true m (nLV md L k) (besV md L N k) l1 l2).EEab * Real.exp (vVal true m (nLV md L k) (besV md L N k) l1 l2).sk)) ∧
    (Tame K fun k => k ^ (l1 + l2 + 1) * ((vVal true m (nLV md L k) (besV md L N k) l1 l2).EMab * Real.exp (vVal true m (nLV md L k) (besV md L N k) l1 l2).sk)) ∧
    (Tame K fun k => k ^ (l1 + l2 + 1) * ((vVal true m (nLV md L k) (besV md L N k) l1 l2).EEba * Real.exp (vVal true m (nLV md L k) (besV md L N k) l1 l2).sk)) ∧
    Tame K fun k => k ^ (l1 + l2 + 1) * ((vVal true m (nLV md L k) (besV md L N k) l1 l2).EMba * Real.exp (vVal true m (nLV md L k) (besV md L N k) l1 l2).sk) := by
  have t := fun i (hi : i ∈ Finset.range (min l1 l2 + 1)) => vCommon_tame (K := K) h hL hN m (Finset.mem_range.mp hi)
  have s2 := (nLV_tame (K := K) h L).2
  unfold vVal
  simp only
  refine ⟨(Tame.sum (Finset.range (min l1 l2 + 1)) fun i hi => (t i hi).const_mul ((l1 * (l1 + 1) + l2 * (l2 + 1) : ℝ) -
      ((lppMin l1 l2 + 2 * i : ℕ) : ℝ) * (((lppMin l1 l2 + 2 * i : ℕ) : ℝ) + 1))).congr fun k _ => ?_,
    (Tame.sum (Finset.range (min l1 l2 + 1)) fun i hi => (t i hi).mul (s2.const_mul (2 * (m : ℝ)))).congr fun k _ => ?_,
    (Tame.sum (Finset.range (min l1 l2 + 1)) fun i hi => (t i hi).const_mul (((l1 * (l1 + 1) + l2 * (l2 + 1) : ℝ) -
      ((lppMin l1 l2 + 2 * i : ℕ) : ℝ) * (((lppMin l1 l2 + 2 * i : ℕ) : ℝ) + 1)) * (-1) ^ (lppMin l1 l2 + 2 * i))).congr fun k _ => ?_,
    (Tame.sum (Finset.range (min l1 l2 + 1)) fun i hi => (t i hi).mul (s2.const_mul (-(2 * (m : ℝ)) * (-1) ^ (lppMin l1 l2 + 2 * i)))).congr fun k _ => ?_⟩ <;>
    rw [Finset.sum_mul, Finset.mul_sum] <;> refine Finset.sum_congr rfl fun i _ => ?_ <;> ring

/-! ## Determinant -/

theorem roundTrip_tame {n p : ℕ} {aE aM : ℝ → Fin n → ℝ} {bE bM : ℝ → Fin p → ℝ} {fE fX gE gX : ℝ → Matrix (Fin n) (Fin p) ℝ}
    (haE : ∀ i, Tame K fun k => aE k i) (haM : ∀ i, Tame K fun k => aM k i) (hbE : ∀ i, Tame K fun k => bE k i) (hbM : ∀ i, Tame K fun k => bM k i)
    (hfE : ∀ i s, Tame K fun k => fE k i s) (hfX : ∀ i s, Tame K fun k => fX k i s) (hgE : ∀ i s, Tame K fun k => gE k i s)
    (hgX : ∀ i s, Tame K fun k => gX k i s) :
    Tame K fun k => (1 - roundTrip (aE k) (aM k) (bE k) (bM k) (fE k) (fX k) (gE k) (gX k)).det := by
  refine Tame.det fun x y => ?_
  simp only [Matrix.sub_apply]
  refine (Tame.const _).sub ?_
  rcases x with i | i <;> rcases y with j | j <;>
    simp only [roundTrip_blocks, fromBlocks_apply₁₁, fromBlocks_apply₁₂, fromBlocks_apply₂₁, fromBlocks_apply₂₂, of_apply] <;>
    refine Tame.sum _ fun s _ => ?_
  · exact ((((haE i).mul (hfE i s)).mul (hbE s)).mul (hgE j s)).add ((((haE i).mul (hfX i s)).mul (hbM s)).mul (hgX j s))
  · exact ((((haE i).mul (hfE i s)).mul (hbE s)).mul (hgX j s)).add ((((haE i).mul (hfX i s)).mul (hbM s)).mul (hgE j s))
  · exact ((((haM i).mul (hfX i s)).mul (hbE s)).mul (hgE j s)).add ((((haM i).mul (hfE i s)).mul (hbM s)).mul (hgX j s))
  · exact ((((haM i).mul (hfX i s)).mul (hbE s)).mul (hgX j s)).add ((((haM i).mul (hfE i s)).mul (hbM s)).mul (hgE j s))

theorem rtV_tame {mA mB md : Material} (hA : SphereMat mA) (hB : SphereMat mB) (h : MediumMat md) {r1 r2 L : ℝ} (h1 : 0 < r1) (h2 : 0 < r2) (hL : 0 < L)
    (lmax lssmax m : ℕ) : Tame K fun k => (1 - rtV mA mB md r1 r2 L lmax lssmax m k).det := by
  have hl : ∀ i : ℕ, 1 ≤ transLmin (m : ℤ) + i := fun i => by unfold transLmin; omega
  have ca := fun i : ℕ => mie_tame (K := K) hA h h1 (hl i)
  have cb := fun i : ℕ => mie_tame (K := K) hB h h2 (hl i)
  have cv := fun (i : Fin (lmax + 1 - transLmin (m : ℤ))) (s : Fin (lssmax + 1 - transLmin (m : ℤ))) =>
    vVal_tame (K := K) h hL (N := lmax + lssmax + 1 + 1) (l1 := transLmin (m : ℤ) + i.1) (l2 := transLmin (m : ℤ) + s.1) (by have := i.2; have := s.2; omega) m
  have t := roundTrip_tame (K := K) (fun i : Fin (lmax + 1 - transLmin (m : ℤ)) => (ca i.1).1) (fun i => (ca i.1).2) (fun s : Fin (lssmax + 1 - transLmin (m : ℤ)) => (cb s.1).1)
    (fun s => (cb s.1).2) (fE := fun k => of fun i s => k ^ (transLmin (m : ℤ) + i.1 + (transLmin (m : ℤ) + s.1) + 1) *
        ((vVal true m (nLV md L k) (besV md L (lmax + lssmax + 1 + 1) k) (transLmin (m : ℤ) + i.1) (transLmin (m : ℤ) + s.1)).EEab *
          Real.exp (vVal true m (nLV md L k) (besV md L (lmax + lssmax + 1 + 1) k) (transLmin (m : ℤ) + i.1) (transLmin (m : ℤ) + s.1)).sk))
      (fX := fun k => of fun i s => k ^ (transLmin (m : ℤ) + i.1 + (transLmin (m : ℤ) + s.1) + 1) *
        ((vVal true m (nLV md L k) (besV md L (lmax + lssmax + 1 + 1) k) (transLmin (m : ℤ) + i.1) (transLmin (m : ℤ) + s.1)).EMab *
          Real.exp (vVal true m (nLV md L k) (besV md L (lmax + lssmax + 1 + 1) k) (transLmin (m : ℤ) + i.1) (transLmin (m : ℤ) + s.1)).sk))
      (gE := fun k => of fun i s => k ^ (transLmin (m : ℤ) + i.1 + (transLmin (m : ℤ) + s.1) + 1) *
        ((vVal true m (nLV md L k) (besV md L (lmax + lssmax + 1 + 1) k) (transLmin (m : ℤ) + i.1) (transLmin (m : ℤ) + s.1)).EEba *
          Real.exp (vVal true m (nLV md L k) (besV md L (lmax + lssmax + 1 + 1) k) (transLmin (m : ℤ) + i.1) (transLmin (m : ℤ) + s.1)).sk))
      (gX := fun k => of fun i s => k ^ (transLmin (m : ℤ) + i.1 + (transLmin (m : ℤ) + s.1) + 1) *
        ((vVal true m (nLV md L k) (besV md L (lmax + lssmax + 1 + 1) k) (transLmin (m : ℤ) + i.1) (transLmin (m : ℤ) + s.1)).EMba *
          Real.exp (vVal true m (nLV md L k) (besV md L (lmax + lssmax + 1 + 1) k) (transLmin (m : ℤ) + i.1) (transLmin (m : ℤ) + s.1)).sk))
      (fun i s => (cv i s).1) (fun i s => (cv i s).2.1) (fun i s => (cv i s).2.2.1) (fun i s => (cv i s).2.2.2)
  refine t.congr fun k hk => ?_
  exact (roundTrip_rescale (transLmin (m : ℤ)) hk.1 _ _ _ _ _ _ _ _).det.symm

end CasSph
