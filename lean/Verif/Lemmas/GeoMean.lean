import Verif.Lemmas.PairGram
import Mathlib.Analysis.MeanInequalities

/-! # Three values of log-convex and of convex functions (independent of the model)

Relations between three non-negative numbers that are preserved by sums, products, limits and integrals, hence by `-ln det(1 - H Hᵀ)` of non-negative arrays. -/

namespace CasSph

open Spec Filter Topology MeasureTheory Set

/-- weighted geometric mean -/
noncomputable def gm (t a b : ℝ) : ℝ := a ^ t * b ^ (1 - t)

section
variable {t : ℝ}

theorem gm_nonneg {a b : ℝ} (ha : 0 ≤ a) (hb : 0 ≤ b) : 0 ≤ gm t a b := mul_nonneg (Real.rpow_nonneg ha _) (Real.rpow_nonneg hb _)

theorem gm_mul {a b c d : ℝ} (ha : 0 ≤ a) (hb : 0 ≤ b) (hc : 0 ≤ c) (hd : 0 ≤ d) : gm t a b * gm t c d = gm t (a * c) (b * d) := by
  unfold gm
  rw [Real.mul_rpow ha hc, Real.mul_rpow hb hd]
  ring

theorem gm_self {a : ℝ} (ha : 0 ≤ a) : gm t a a = a := by
  unfold gm
  rw [← Real.rpow_add' ha (by simp), add_sub_cancel, Real.rpow_one]

theorem gm_le_am {a b : ℝ} (h0 : 0 ≤ t) (h1 : t ≤ 1) (ha : 0 ≤ a) (hb : 0 ≤ b) : gm t a b ≤ t * a + (1 - t) * b :=
  Real.geom_mean_le_arith_mean2_weighted h0 (by linarith) ha hb (by ring)

theorem gm_le_lin {a b A B : ℝ} (h0 : 0 ≤ t) (h1 : t ≤ 1) (ha : 0 ≤ a) (hb : 0 ≤ b) (hA : 0 < A) (hB : 0 < B) :
    gm t a b ≤ gm t A B * (t * (a / A) + (1 - t) * (b / B)) := by
  calc gm t a b = gm t A B * gm t (a / A) (b / B) := by
        rw [gm_mul hA.le hB.le (by positivity) (by positivity), mul_div_cancel₀ _ hA.ne', mul_div_cancel₀ _ hB.ne']
    _ ≤ _ := mul_le_mul_of_nonneg_left (gm_le_am h0 h1 (by positivity) (by positivity)) (gm_nonneg hA.le hB.le)

theorem gm_tendsto (h0 : 0 < t) (h1 : t < 1) {ι : Type*} {l : Filter ι} {f g : ι → ℝ} {a b : ℝ} (hf : Tendsto f l (𝓝 a)) (hg : Tendsto g l (𝓝 b)) :
    Tendsto (fun i => gm t (f i) (g i)) l (𝓝 (gm t a b)) :=
  (hf.rpow_const (.inr h0.le)).mul (hg.rpow_const (.inr (by linarith)))

/-- Bounds by all larger numbers. -/
theorem le_gm (h0 : 0 < t) (h1 : t < 1) {x A B : ℝ} (hA : 0 ≤ A) (hB : 0 ≤ B)
    (h : ∀ A' B', 0 < A' → 0 < B' → x ≤ gm t A' B' * (t * (A / A') + (1 - t) * (B / B'))) : x ≤ gm t A B := by
  have hl : ∀ A : ℝ, Tendsto (fun n : ℕ => A + 1 / ((n : ℝ) + 1)) atTop (𝓝 A) := fun A => by
    simpa using tendsto_const_nhds.add (tendsto_one_div_add_atTop_nhds_zero_nat (𝕜 := ℝ))
  refine ge_of_tendsto' (gm_tendsto h0 h1 (hl A) (hl B)) fun n => ?_
  have hn : (0 : ℝ) < 1 / ((n : ℝ) + 1) := by positivity
  have pA : 0 < A + 1 / ((n : ℝ) + 1) := by linarith
  have pB : 0 < B + 1 / ((n : ℝ) + 1) := by linarith
  refine (h _ _ pA pB).trans (mul_le_of_le_one_right (gm_nonneg pA.le pB.le) ?_)
  have a1 : A / (A + 1 / ((n : ℝ) + 1)) ≤ 1 := (div_le_one pA).mpr (by linarith)
  have b1 : B / (B + 1 / ((n : ℝ) + 1)) ≤ 1 := (div_le_one pB).mpr (by linarith)
  nlinarith [mul_le_mul_of_nonneg_left a1 h0.le, mul_le_mul_of_nonneg_left b1 (by linarith : (0 : ℝ) ≤ 1 - t)]

end

/-- A relation between three numbers that is preserved by sums, products, limits and integrals. -/
structure MeanRel (R : ℝ → ℝ → ℝ → Prop) : Prop where
  refl : ∀ {c}, 0 ≤ c → R c c c
  add : ∀ {a b c a' b' c'}, R a b c → R a' b' c' → R (a + a') (b + b') (c + c')
  mul : ∀ {a b c a' b' c'}, R a b c → R a' b' c' → R (a * a') (b * b') (c * c')
  lim : ∀ {f g h : ℕ → ℝ} {a b c}, Tendsto f atTop (𝓝 a) → Tendsto g atTop (𝓝 b) → Tendsto h atTop (𝓝 c) → (∀ n, R (f n) (g n) (h n)) → R a b c
  int : ∀ {s : Set ℝ} {f g h : ℝ → ℝ}, MeasurableSet s → IntegrableOn f s → IntegrableOn g s → IntegrableOn h s → (∀ x ∈ s, R (f x) (g x) (h x)) →
    R (∫ x in s, f x) (∫ x in s, g x) (∫ x in s, h x)

section
variable {R : ℝ → ℝ → ℝ → Prop}

theorem MeanRel.scale (hR : MeanRel R) {a b c x : ℝ} (hx : 0 ≤ x) (h : R a b c) : R (x * a) (x * b) (x * c) := hR.mul (hR.refl hx) h

theorem MeanRel.sum (hR : MeanRel R) {ι : Type*} (s : Finset ι) {f g h : ι → ℝ} (hr : ∀ i ∈ s, R (f i) (g i) (h i)) :
    R (∑ i ∈ s, f i) (∑ i ∈ s, g i) (∑ i ∈ s, h i) := by
  classical
  induction s using Finset.induction with
  | empty => simpa using hR.refl le_rfl
  | insert i s hi ih =>
    rw [Finset.sum_insert hi, Finset.sum_insert hi, Finset.sum_insert hi]
    exact hR.add (hr i (by simp)) (ih fun j hj => hr j (by simp [hj]))

theorem MeanRel.npow (hR : MeanRel R) {a b c : ℝ} (h : R a b c) : ∀ n : ℕ, R (a ^ n) (b ^ n) (c ^ n)
  | 0 => by simp only [pow_zero]; exact hR.refl zero_le_one
  | n + 1 => by rw [_root_.pow_succ, _root_.pow_succ, _root_.pow_succ]; exact hR.mul (hR.npow h n) h

theorem MeanRel.pow (hR : MeanRel R) {n : ℕ} {X Y Z : Matrix (Fin n) (Fin n) ℝ} (h : ∀ i j, R (X i j) (Y i j) (Z i j)) :
    ∀ (k : ℕ) (i j : Fin n), R ((X ^ k) i j) ((Y ^ k) i j) ((Z ^ k) i j)
  | 0, i, j => by
    simp only [pow_zero]
    refine hR.refl ?_
    rw [Matrix.one_apply]; split_ifs <;> norm_num
  | k + 1, i, j => by
    rw [_root_.pow_succ, _root_.pow_succ, _root_.pow_succ, Matrix.mul_apply, Matrix.mul_apply, Matrix.mul_apply]
    exact hR.sum _ fun q _ => hR.mul (hR.pow h k i q) (h q j)

theorem MeanRel.det (hR : MeanRel R) {H1 H2 H3 : ℕ → ℕ → ℝ} {θ1 θ2 θ3 T1 T2 T3 : ℝ} (h1 : HSContr H1 θ1 T1) (h2 : HSContr H2 θ2 T2) (h3 : HSContr H3 θ3 T3)
    {n p : ℕ} (h : ∀ i < n, ∀ s < p, R (H1 i s) (H2 i s) (H3 i s)) :
    R (-Real.log (1 - gram 1 H1 n p).det) (-Real.log (1 - gram 1 H2 n p).det) (-Real.log (1 - gram 1 H3 n p).det) := by
  have l1 := traceSum_tendsto (h1.spectrum (.inl rfl) n p)
  have l2 := traceSum_tendsto (h2.spectrum (.inl rfl) n p)
  have l3 := traceSum_tendsto (h3.spectrum (.inl rfl) n p)
  rw [abs_of_pos (h1.pos (.inl rfl) n p).1] at l1
  rw [abs_of_pos (h2.pos (.inl rfl) n p).1] at l2
  rw [abs_of_pos (h3.pos (.inl rfl) n p).1] at l3
  have g : ∀ i j : Fin n, R (gram 1 H1 n p i j) (gram 1 H2 n p i j) (gram 1 H3 n p i j) := by
    intro i j
    unfold gram
    rw [one_smul, one_smul, one_smul, Matrix.mul_apply, Matrix.mul_apply, Matrix.mul_apply]
    exact hR.sum _ fun s _ => hR.mul (h i.1 i.2 s.1 s.2) (h j.1 j.2 s.1 s.2)
  refine hR.lim l1 l2 l3 fun K => ?_
  unfold traceSum
  refine hR.sum _ fun j _ => ?_
  simp only [div_eq_inv_mul]
  refine hR.scale (by positivity) ?_
  simp only [Matrix.trace, Matrix.diag_apply]
  exact hR.sum _ fun i _ => hR.pow g j i i

end

/-- `c` is at most the weighted geometric mean of `a` and `b`. -/
def GMRel (t a b c : ℝ) : Prop := 0 ≤ a ∧ 0 ≤ b ∧ 0 ≤ c ∧ c ≤ gm t a b

theorem gmRel_closed {t : ℝ} (h0 : 0 < t) (h1 : t < 1) : MeanRel (GMRel t) := by
  refine ⟨fun {c} hc => ⟨hc, hc, hc, (gm_self hc).ge⟩, ?_, ?_, ?_, ?_⟩
  · rintro a b c a' b' c' ⟨a0, b0, c0, h⟩ ⟨a0', b0', c0', h'⟩
    refine ⟨by positivity, by positivity, by positivity, le_gm h0 h1 (by positivity) (by positivity) fun A B hA hB => ?_⟩
    have q := gm_le_lin h0.le h1.le a0 b0 hA hB
    have q' := gm_le_lin h0.le h1.le a0' b0' hA hB
    have e : gm t A B * (t * ((a + a') / A) + (1 - t) * ((b + b') / B)) =
        gm t A B * (t * (a / A) + (1 - t) * (b / B)) + gm t A B * (t * (a' / A) + (1 - t) * (b' / B)) := by ring
    rw [e]
    linarith
  · rintro a b c a' b' c' ⟨a0, b0, c0, h⟩ ⟨a0', b0', c0', h'⟩
    refine ⟨by positivity, by positivity, by positivity, ?_⟩
    rw [← gm_mul a0 b0 a0' b0']
    exact mul_le_mul h h' c0' (gm_nonneg a0 b0)
  · intro f g h a b c hf hg hh hr
    exact ⟨ge_of_tendsto' hf fun n => (hr n).1, ge_of_tendsto' hg fun n => (hr n).2.1, ge_of_tendsto' hh fun n => (hr n).2.2.1,
      le_of_tendsto_of_tendsto' hh (gm_tendsto h0 h1 hf hg) fun n => (hr n).2.2.2⟩
  · intro s f g h hs hf hg hh hr
    have a0 := setIntegral_nonneg (μ := volume) hs fun x hx => (hr x hx).1
    have b0 := setIntegral_nonneg (μ := volume) hs fun x hx => (hr x hx).2.1
    refine ⟨a0, b0, setIntegral_nonneg hs fun x hx => (hr x hx).2.2.1, le_gm h0 h1 a0 b0 fun A B hA hB => ?_⟩
    have e : gm t A B * (t * ((∫ x in s, f x) / A) + (1 - t) * ((∫ x in s, g x) / B)) =
        ∫ x in s, gm t A B * (t * (f x / A) + (1 - t) * (g x / B)) := by
      rw [integral_const_mul, integral_add ((hf.div_const A).const_mul t) ((hg.div_const B).const_mul (1 - t)), integral_const_mul, integral_const_mul,
        integral_div, integral_div]
    rw [e]
    refine setIntegral_mono_on hh ((((hf.div_const A).const_mul t).add ((hg.div_const B).const_mul (1 - t))).const_mul _) hs fun x hx => ?_
    obtain ⟨q1, q2, -, q3⟩ := hr x hx
    exact q3.trans (gm_le_lin h0.le h1.le q1 q2 hA hB)

/-- `a ≤ b`, and `c` is at most the weighted arithmetic mean of `a` and `b`. -/
def AMRel (t a b c : ℝ) : Prop := 0 ≤ a ∧ a ≤ b ∧ 0 ≤ c ∧ c ≤ t * a + (1 - t) * b

theorem amRel_closed {t : ℝ} (h0 : 0 ≤ t) (h1 : t ≤ 1) : MeanRel (AMRel t) := by
  refine ⟨fun {c} hc => ⟨hc, le_rfl, hc, by linarith⟩, ?_, ?_, ?_, ?_⟩
  · rintro a b c a' b' c' ⟨a0, b0, c0, h⟩ ⟨a0', b0', c0', h'⟩
    exact ⟨by positivity, by linarith, by positivity, by linarith⟩
  · rintro a b c a' b' c' ⟨a0, b0, c0, h⟩ ⟨a0', b0', c0', h'⟩
    refine ⟨by positivity, mul_le_mul b0 b0' a0' (a0.trans b0), by positivity, ?_⟩
    have s := mul_nonneg (mul_nonneg h0 (by linarith : (0 : ℝ) ≤ 1 - t)) (mul_nonneg (sub_nonneg.mpr b0) (sub_nonneg.mpr b0'))
    calc c * c' ≤ (t * a + (1 - t) * b) * (t * a' + (1 - t) * b') := mul_le_mul h h' c0' (c0.trans h)
      _ ≤ _ := by nlinarith
  · intro f g h a b c hf hg hh hr
    exact ⟨ge_of_tendsto' hf fun n => (hr n).1, le_of_tendsto_of_tendsto' hf hg fun n => (hr n).2.1, ge_of_tendsto' hh fun n => (hr n).2.2.1,
      le_of_tendsto_of_tendsto' hh ((hf.const_mul t).add (hg.const_mul (1 - t))) fun n => (hr n).2.2.2⟩
  · intro s f g h hs hf hg hh hr
    refine ⟨setIntegral_nonneg hs fun x hx => (hr x hx).1, setIntegral_mono_on hf hg hs fun x hx => (hr x hx).2.1,
      setIntegral_nonneg hs fun x hx => (hr x hx).2.2.1, ?_⟩
    rw [← integral_const_mul, ← integral_const_mul, ← integral_add (hf.const_mul t) (hg.const_mul (1 - t))]
    exact setIntegral_mono_on hh ((hf.const_mul t).add (hg.const_mul (1 - t))) hs fun x hx => (hr x hx).2.2.2

end CasSph
