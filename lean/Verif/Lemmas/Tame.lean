import Mathlib.Analysis.Calculus.MeanValue
import Mathlib.Analysis.Calculus.Deriv.Inv
import Mathlib.Analysis.Calculus.Deriv.Pow
import Mathlib.Analysis.SpecialFunctions.Log.Deriv
import Mathlib.Analysis.SpecialFunctions.ExpDeriv
import Mathlib.Analysis.SpecialFunctions.Sqrt
import Mathlib.LinearAlgebra.Matrix.Determinant.Basic

/-! # Functions with a continuous and bounded derivative on `(0, K)` -/

namespace CasSph

open Set Filter Topology

/-- A continuous, bounded derivative on `(0, K)`; nothing is said about `0` itself. -/
def Tame (K : ℝ) (f : ℝ → ℝ) : Prop :=
  ∃ f' : ℝ → ℝ, (∀ k ∈ Ioo 0 K, HasDerivAt f (f' k) k) ∧ ContinuousOn f' (Ioo 0 K) ∧ ∃ C, ∀ k ∈ Ioo 0 K, |f' k| ≤ C

variable {K : ℝ} {f g : ℝ → ℝ}

theorem Tame.congr (h : Tame K f) (e : ∀ k ∈ Ioo 0 K, g k = f k) : Tame K g := by
  obtain ⟨f', h1, h2, h3⟩ := h
  exact ⟨f', fun k hk => (h1 k hk).congr_of_eventuallyEq (mem_of_superset (isOpen_Ioo.mem_nhds hk) e), h2, h3⟩

theorem Tame.bdd (h : Tame K f) : ∃ B, 0 ≤ B ∧ ∀ k ∈ Ioo 0 K, |f k| ≤ B := by
  obtain ⟨f', h1, -, C, h3⟩ := h
  rcases lt_or_ge 0 K with hK | hK
  · have hm : K / 2 ∈ Ioo 0 K := ⟨by linarith, by linarith⟩
    have hC : 0 ≤ C := (abs_nonneg _).trans (h3 _ hm)
    refine ⟨|f (K / 2)| + C * K, by positivity, fun k hk => ?_⟩
    have := (convex_Ioo (0 : ℝ) K).norm_image_sub_le_of_norm_hasDerivWithin_le (fun x hx => (h1 x hx).hasDerivWithinAt) (fun x hx => h3 x hx) hm hk
    rw [Real.norm_eq_abs, Real.norm_eq_abs] at this
    have h4 : |k - K / 2| ≤ K := by rw [abs_le]; constructor <;> linarith [hk.1, hk.2]
    have h5 := mul_le_mul_of_nonneg_left h4 hC
    have h6 := abs_sub_abs_le_abs_sub (f k) (f (K / 2))
    linarith
  · exact ⟨0, le_rfl, fun k hk => absurd (hk.1.trans hk.2) (not_lt.mpr hK)⟩

theorem Tame.cont (h : Tame K f) {k : ℝ} (hk : k ∈ Ioo 0 K) : ContinuousAt f k := by
  obtain ⟨f', h1, -⟩ := h
  exact (h1 k hk).continuousAt

theorem Tame.contOn (h : Tame K f) : ContinuousOn f (Ioo 0 K) := fun _ hk => (h.cont hk).continuousWithinAt

theorem Tame.const (c : ℝ) : Tame K fun _ => c :=
  ⟨fun _ => 0, fun k _ => hasDerivAt_const k c, continuousOn_const, 0, fun k _ => by simp⟩

theorem Tame.id : Tame K fun k => k :=
  ⟨fun _ => 1, fun k _ => hasDerivAt_id' k, continuousOn_const, 1, fun k _ => by simp⟩

theorem Tame.add (hf : Tame K f) (hg : Tame K g) : Tame K fun k => f k + g k := by
  obtain ⟨f', a1, a2, A, a3⟩ := hf
  obtain ⟨g', b1, b2, B, b3⟩ := hg
  exact ⟨fun k => f' k + g' k, fun k hk => (a1 k hk).fun_add (b1 k hk), a2.add b2, A + B, fun k hk => (abs_add_le _ _).trans (add_le_add (a3 k hk) (b3 k hk))⟩

theorem Tame.mul (hf : Tame K f) (hg : Tame K g) : Tame K fun k => f k * g k := by
  obtain ⟨A', A0, a4⟩ := hf.bdd
  obtain ⟨B', B0, b4⟩ := hg.bdd
  have cf := hf.contOn
  have cg := hg.contOn
  obtain ⟨f', a1, a2, A, a3⟩ := hf
  obtain ⟨g', b1, b2, B, b3⟩ := hg
  refine ⟨fun k => f' k * g k + f k * g' k, fun k hk => (a1 k hk).fun_mul (b1 k hk), (a2.mul cg).add (cf.mul b2), A * B' + A' * B, fun k hk => ?_⟩
  refine (abs_add_le _ _).trans (add_le_add ?_ ?_)
  · rw [abs_mul]; exact mul_le_mul (a3 k hk) (b4 k hk) (abs_nonneg _) ((abs_nonneg _).trans (a3 k hk))
  · rw [abs_mul]; exact mul_le_mul (a4 k hk) (b3 k hk) (abs_nonneg _) A0

theorem Tame.const_mul (c : ℝ) (hf : Tame K f) : Tame K fun k => c * f k := (Tame.const c).mul hf

theorem Tame.neg (hf : Tame K f) : Tame K fun k => -f k := (hf.const_mul (-1)).congr fun k _ => by ring

theorem Tame.sub (hf : Tame K f) (hg : Tame K g) : Tame K fun k => f k - g k := (hf.add hg.neg).congr fun k _ => by ring

theorem Tame.sum {ι : Type*} (s : Finset ι) {F : ι → ℝ → ℝ} (h : ∀ i ∈ s, Tame K (F i)) : Tame K fun k => ∑ i ∈ s, F i k := by
  classical
  induction s using Finset.induction_on with
  | empty => simpa using Tame.const 0
  | insert i s hi ih =>
    exact ((h i (Finset.mem_insert_self _ _)).add (ih fun j hj => h j (Finset.mem_insert_of_mem hj))).congr fun k _ => Finset.sum_insert hi

theorem Tame.prod {ι : Type*} (s : Finset ι) {F : ι → ℝ → ℝ} (h : ∀ i ∈ s, Tame K (F i)) : Tame K fun k => ∏ i ∈ s, F i k := by
  classical
  induction s using Finset.induction_on with
  | empty => simpa using Tame.const 1
  | insert i s hi ih =>
    exact ((h i (Finset.mem_insert_self _ _)).mul (ih fun j hj => h j (Finset.mem_insert_of_mem hj))).congr fun k _ => Finset.prod_insert hi

theorem Tame.pow (hf : Tame K f) : ∀ n : ℕ, Tame K fun k => f k ^ n
  | 0 => (Tame.const 1).congr fun k _ => pow_zero _
  | n + 1 => ((Tame.pow hf n).mul hf).congr fun k _ => pow_succ _ _

theorem Tame.listSum {α : Type*} {F : α → ℝ → ℝ} : ∀ (l : List α), (∀ p ∈ l, Tame K (F p)) → Tame K fun k => (l.map fun p => F p k).sum
  | [], _ => by simpa using Tame.const 0
  | p :: l, h => ((h p (by simp)).add (Tame.listSum l fun q hq => h q (by simp [hq]))).congr fun k _ => by simp

/-- Composition with a function whose derivative is continuous and bounded on bounded intervals `(0, X]`. -/
theorem Tame.comp {φ φ' : ℝ → ℝ} (hf : Tame K f) (hpos : ∀ k ∈ Ioo 0 K, 0 < f k) (h1 : ∀ x, 0 < x → HasDerivAt φ (φ' x) x)
    (h2 : ∀ x, 0 < x → ContinuousAt φ' x) (h3 : ∀ X, ∃ C, ∀ x, 0 < x → x ≤ X → |φ' x| ≤ C) : Tame K fun k => φ (f k) := by
  obtain ⟨B, B0, hb⟩ := hf.bdd
  have cf := hf.contOn
  obtain ⟨f', a1, a2, A, a3⟩ := hf
  obtain ⟨C, hC⟩ := h3 B
  refine ⟨fun k => φ' (f k) * f' k, fun k hk => (h1 _ (hpos k hk)).comp k (a1 k hk), ContinuousOn.mul (fun k hk => ?_) a2, C * A, fun k hk => ?_⟩
  · exact ((h2 _ (hpos k hk)).comp (a1 k hk).continuousAt).continuousWithinAt
  · have e := hC _ (hpos k hk) ((le_abs_self _).trans (hb k hk))
    rw [abs_mul]
    exact mul_le_mul e (a3 k hk) (abs_nonneg _) ((abs_nonneg _).trans e)

/-- Composition with a function whose derivative is continuous on `(0, ∞)`, if the inner function has a positive lower bound. -/
theorem Tame.comp_lower {φ φ' : ℝ → ℝ} (hf : Tame K f) {c : ℝ} (hc : 0 < c) (hlow : ∀ k ∈ Ioo 0 K, c ≤ f k) (h1 : ∀ x, 0 < x → HasDerivAt φ (φ' x) x)
    (h2 : ∀ x, 0 < x → ContinuousAt φ' x) : Tame K fun k => φ (f k) := by
  obtain ⟨B, B0, hb⟩ := hf.bdd
  obtain ⟨f', a1, a2, A, a3⟩ := hf
  obtain ⟨C, hC⟩ := (isCompact_Icc (a := c) (b := B)).exists_bound_of_continuousOn (f := φ')
    (fun x hx => (h2 x (hc.trans_le hx.1)).continuousWithinAt)
  have hpos : ∀ k ∈ Ioo 0 K, 0 < f k := fun k hk => hc.trans_le (hlow k hk)
  refine ⟨fun k => φ' (f k) * f' k, fun k hk => (h1 _ (hpos k hk)).comp k (a1 k hk), ContinuousOn.mul (fun k hk => ?_) a2, C * A, fun k hk => ?_⟩
  · exact ((h2 _ (hpos k hk)).comp (a1 k hk).continuousAt).continuousWithinAt
  · have e := hC _ ⟨hlow k hk, (le_abs_self _).trans (hb k hk)⟩
    rw [Real.norm_eq_abs] at e
    rw [abs_mul]
    exact mul_le_mul e (a3 k hk) (abs_nonneg _) ((abs_nonneg _).trans e)

theorem Tame.inv (hf : Tame K f) {c : ℝ} (hc : 0 < c) (hlow : ∀ k ∈ Ioo 0 K, c ≤ f k) : Tame K fun k => (f k)⁻¹ :=
  hf.comp_lower hc hlow (φ := fun x => x⁻¹) (φ' := fun x => -(x ^ 2)⁻¹) (fun x hx => hasDerivAt_inv hx.ne')
    fun x hx => ((continuousAt_id.pow 2).inv₀ (by simpa using hx.ne')).neg

theorem Tame.div (hf : Tame K f) (hg : Tame K g) {c : ℝ} (hc : 0 < c) (hlow : ∀ k ∈ Ioo 0 K, c ≤ g k) : Tame K fun k => f k / g k :=
  (hf.mul (hg.inv hc hlow)).congr fun k _ => div_eq_mul_inv _ _

theorem Tame.log (hf : Tame K f) {c : ℝ} (hc : 0 < c) (hlow : ∀ k ∈ Ioo 0 K, c ≤ f k) : Tame K fun k => Real.log (f k) :=
  hf.comp_lower hc hlow (φ' := fun x => x⁻¹) (fun x hx => Real.hasDerivAt_log hx.ne') fun x hx => continuousAt_id.inv₀ hx.ne'

theorem Tame.sqrt (hf : Tame K f) {c : ℝ} (hc : 0 < c) (hlow : ∀ k ∈ Ioo 0 K, c ≤ f k) : Tame K fun k => Real.sqrt (f k) :=
  hf.comp_lower hc hlow (φ' := fun x => 1 / (2 * Real.sqrt x)) (fun x hx => Real.hasDerivAt_sqrt hx.ne') fun x hx =>
    continuousAt_const.div (continuousAt_const.mul Real.continuous_sqrt.continuousAt) (by have := Real.sqrt_pos.mpr hx; positivity)

theorem Tame.exp (hf : Tame K f) : Tame K fun k => Real.exp (f k) := by
  obtain ⟨B, B0, hb⟩ := hf.bdd
  have cf := hf.contOn
  obtain ⟨f', a1, a2, A, a3⟩ := hf
  refine ⟨fun k => Real.exp (f k) * f' k, fun k hk => (a1 k hk).exp, (Real.continuous_exp.comp_continuousOn cf).mul a2, Real.exp B * A, fun k hk => ?_⟩
  rw [abs_mul, abs_of_pos (Real.exp_pos _)]
  exact mul_le_mul (Real.exp_le_exp.mpr ((le_abs_self _).trans (hb k hk))) (a3 k hk) (abs_nonneg _) (Real.exp_pos _).le

theorem Tame.det {ι : Type*} [Fintype ι] [DecidableEq ι] {M : ℝ → Matrix ι ι ℝ} (h : ∀ i j, Tame K fun k => M k i j) : Tame K fun k => (M k).det := by
  refine (Tame.sum Finset.univ (F := fun σ k => ((Equiv.Perm.sign σ : ℤ) : ℝ) * ∏ i, M k (σ i) i) fun σ _ =>
    (Tame.prod Finset.univ fun i _ => h (σ i) i).const_mul _).congr fun k _ => ?_
  rw [Matrix.det_apply']

end CasSph
