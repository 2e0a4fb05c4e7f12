import Verif.Model.Materials
import Verif.Spec.Materials
import Verif.Lemmas.Gaunt
import Mathlib.Analysis.SpecificLimits.Basic
import Mathlib.Topology.Algebra.Order.Field
import Mathlib.Order.Filter.AtTopBot.Field
import Mathlib.Topology.Algebra.Monoid

/-! # Auxiliary lemmas for `Model/Materials` -/

namespace CasSph

open Filter Topology

theorem omegaNorm_pos : 0 < omegaNorm := by unfold omegaNorm; norm_num

/-- oscillator parameters in units of `c/µm` -/
noncomputable def oscN (p : Osc) : ℝ × ℝ × ℝ := (p.wP / omegaNorm, p.wR / omegaNorm, p.gamma / omegaNorm)

/-- `wR, γ ≥ 0` -/
def Osc.nonneg (p : Osc) : Prop := 0 ≤ p.wR ∧ 0 ≤ p.gamma

/-- value of one Lorentz term -/
noncomputable def lorT (k : ℝ) (p : Osc) : ℝ :=
  (p.wP / omegaNorm) ^ 2 / ((p.wR / omegaNorm) ^ 2 + k ^ 2 + p.gamma / omegaNorm * k)

theorem lorDen_pos {k : ℝ} (hk : 0 < k) {p : Osc} (hp : p.nonneg) :
    0 < (p.wR / omegaNorm) ^ 2 + k ^ 2 + p.gamma / omegaNorm * k := by
  have h1 : 0 ≤ p.gamma / omegaNorm := div_nonneg hp.2 omegaNorm_pos.le
  positivity

theorem foldlM_add_ok {α : Type} {f : α → Res ℝ} {g : α → ℝ} :
    ∀ (l : List α) (a : ℝ), (∀ p ∈ l, f p = .ok (g p)) →
      l.foldlM (fun acc p => do let t ← f p; .ok (acc + t)) a = (.ok (a + (l.map g).sum) : Res ℝ) := by
  intro l
  induction l with
  | nil => intro a _; simp [pure, Except.pure]
  | cons p l ih =>
    intro a h
    rw [List.foldlM_cons, h p (by simp)]
    simp only [ok_bind]
    rw [ih _ (fun q hq => h q (by simp [hq]))]
    simp [add_assoc]

theorem lorentzEps_eq (k : ℝ) (e : List Osc) :
    Spec.lorentzEps k (e.map oscN) = 1 + (e.map (lorT k)).sum := by
  unfold Spec.lorentzEps; rw [List.map_map]; rfl

theorem epsilon_lorentz_ok {k : ℝ} (hk : 0 < k) {M : Material} (hM : M.cls = .lorentz)
    (hp : ∀ p ∈ M.e, p.nonneg) : M.epsilon k = .ok (Spec.lorentzEps k (M.e.map oscN)) := by
  have : ∀ p ∈ M.e, Material.lorentzTerm k p = .ok (lorT k p) := fun p hpm =>
    cdiv_ok (lorDen_pos hk (hp p hpm)).ne'
  rw [lorentzEps_eq]
  unfold Material.epsilon; rw [hM]
  exact foldlM_add_ok _ _ this

theorem epsilon_lorentz_zero {M : Material} (hM : M.cls = .lorentz)
    (hp : ∀ p ∈ M.e, p.wR ≠ 0) : M.epsilon 0 = .ok (Spec.lorentzEps 0 (M.e.map oscN)) := by
  have : ∀ p ∈ M.e, Material.lorentzTerm 0 p = .ok (lorT 0 p) := fun p hpm => by
    apply cdiv_ok
    have : p.wR / omegaNorm ≠ 0 := div_ne_zero (hp p hpm) omegaNorm_pos.ne'
    have : 0 < (p.wR / omegaNorm) ^ 2 := by positivity
    simp [this.ne']
  rw [lorentzEps_eq]
  unfold Material.epsilon; rw [hM]
  exact foldlM_add_ok _ _ this

theorem list_sum_le {α : Type} {f g : α → ℝ} : ∀ {l : List α}, (∀ p ∈ l, f p ≤ g p) →
    (l.map f).sum ≤ (l.map g).sum := by
  intro l h
  exact List.sum_le_sum h

theorem list_sum_tendsto {α : Type} {F : Filter ℝ} {f : ℝ → α → ℝ} {c : α → ℝ} :
    ∀ {l : List α}, (∀ p ∈ l, Tendsto (fun k => f k p) F (𝓝 (c p))) →
      Tendsto (fun k => (l.map (f k)).sum) F (𝓝 (l.map c).sum) := by
  intro l
  induction l with
  | nil => intro _; simpa using tendsto_const_nhds
  | cons p l ih =>
    intro h
    simp only [List.map_cons, List.sum_cons]
    exact (h p (by simp)).add (ih fun q hq => h q (by simp [hq]))

theorem lorT_nonneg {k : ℝ} (hk : 0 < k) {p : Osc} (hp : p.nonneg) : 0 ≤ lorT k p :=
  div_nonneg (sq_nonneg _) (lorDen_pos hk hp).le

theorem lorT_anti {k k' : ℝ} (hk : 0 < k) (hkk : k ≤ k') {p : Osc} (hp : p.nonneg) : lorT k' p ≤ lorT k p := by
  unfold lorT
  have h1 : 0 ≤ p.gamma / omegaNorm := div_nonneg hp.2 omegaNorm_pos.le
  apply div_le_div_of_nonneg_left (sq_nonneg _) (lorDen_pos hk hp)
  gcongr

theorem lorT_atTop {p : Osc} (hp : p.nonneg) : Tendsto (fun k => lorT k p) atTop (𝓝 0) := by
  unfold lorT
  have h1 : 0 ≤ p.gamma / omegaNorm := div_nonneg hp.2 omegaNorm_pos.le
  apply Tendsto.div_atTop tendsto_const_nhds
  apply tendsto_atTop_mono' _ _ (tendsto_id (α := ℝ))
  filter_upwards [eventually_ge_atTop 1] with k hk
  have : k ≤ k ^ 2 := by nlinarith
  have h2 : 0 ≤ p.gamma / omegaNorm * k := by positivity
  have := sq_nonneg (p.wR / omegaNorm)
  simp only [id]; linarith

theorem lorT_cont {p : Osc} (hp : p.wR ≠ 0) : Tendsto (fun k => lorT k p) (𝓝 0) (𝓝 (lorT 0 p)) := by
  unfold lorT
  have h : (p.wR / omegaNorm) ^ 2 + 0 ^ 2 + p.gamma / omegaNorm * 0 ≠ 0 := by
    have : p.wR / omegaNorm ≠ 0 := div_ne_zero hp omegaNorm_pos.ne'
    have : 0 < (p.wR / omegaNorm) ^ 2 := by positivity
    simpa using ⟨hp, omegaNorm_pos.ne'⟩
  have hc : ContinuousAt (fun k : ℝ => (p.wP / omegaNorm) ^ 2 /
      ((p.wR / omegaNorm) ^ 2 + k ^ 2 + p.gamma / omegaNorm * k)) 0 := by
    refine ContinuousAt.div (f := fun _ => (p.wP / omegaNorm) ^ 2)
      (g := fun k => (p.wR / omegaNorm) ^ 2 + k ^ 2 + p.gamma / omegaNorm * k) continuousAt_const ?_ h
    fun_prop
  exact hc

theorem mu_ok {M : Material} {k : ℝ} (hk : 0 ≤ k) (hb : ∀ x, M.b = some x → 0 < x.2) :
    M.mu k = .ok (match M.cls, M.b with
      | .pec, _ => 1
      | _, none => 1
      | _, some x => Spec.debyeMu k x.1 (x.2 / omegaNorm)) := by
  unfold Material.mu Spec.debyeMu
  rcases M with ⟨cls, e, b⟩
  have key : ∀ x, b = some x → (do
      let t ← cdiv k (x.2 / omegaNorm)
      let u ← cdiv (x.1 - 1) (1 + t)
      (.ok (1 + u) : Res ℝ)) = .ok (1 + (x.1 - 1) / (1 + k / (x.2 / omegaNorm))) := by
    intro x hx
    have hw : 0 < x.2 / omegaNorm := div_pos (hb x hx) omegaNorm_pos
    have : 0 < 1 + k / (x.2 / omegaNorm) := by positivity
    rw [cdiv_ok hw.ne', ok_bind, cdiv_ok this.ne', ok_bind]
  cases cls <;> cases b with
  | none => rfl
  | some x => first | rfl | exact key x rfl

end CasSph
