import Verif.Lemmas.Scattering

/-! # Low-frequency behaviour of the materials -/

namespace CasSph

open Spec Filter Topology

/-- value of `mu` -/
noncomputable def Material.muV (M : Material) (k : ℝ) : ℝ :=
  match M.cls, M.b with
  | .pec, _ => 1
  | _, none => 1
  | _, some x => Spec.debyeMu k x.1 (x.2 / omegaNorm)

theorem mu_val {M : Material} (hp : M.Physical) {k : ℝ} (hk : 0 ≤ k) : M.mu k = .ok (M.muV k) :=
  mu_ok hk fun x hx => (hp.mag x hx).2

theorem muV_pos {M : Material} (hp : M.Physical) {k : ℝ} (hk : 0 ≤ k) : 0 < M.muV k := by
  rcases M with ⟨cls, e, b⟩
  unfold Material.muV
  have key : ∀ x, b = some x → 0 < Spec.debyeMu k x.1 (x.2 / omegaNorm) := by
    intro x hx
    obtain ⟨h1, h2⟩ := hp.mag x hx
    have hw : 0 < x.2 / omegaNorm := div_pos h2 omegaNorm_pos
    have ht : 0 ≤ k / (x.2 / omegaNorm) := div_nonneg hk hw.le
    unfold Spec.debyeMu
    generalize k / (x.2 / omegaNorm) = t at ht ⊢
    have : 1 + (x.1 - 1) / (1 + t) = (t + x.1) / (1 + t) := by
      have : 1 + t ≠ 0 := by linarith
      field_simp; ring
    rw [this]; positivity
  cases cls <;> cases b with
  | none => norm_num
  | some x => first | exact key x rfl | norm_num

theorem muV_tendsto {M : Material} (hp : M.Physical) : Tendsto M.muV (𝓝[>] 0) (𝓝 (M.muV 0)) := by
  rcases M with ⟨cls, e, b⟩
  have key : ∀ x, b = some x → Tendsto (fun k => Spec.debyeMu k x.1 (x.2 / omegaNorm)) (𝓝[>] 0)
      (𝓝 (Spec.debyeMu 0 x.1 (x.2 / omegaNorm))) := by
    intro x hx
    have hw : 0 < x.2 / omegaNorm := div_pos (hp.mag x hx).2 omegaNorm_pos
    have hc : ContinuousAt (fun k => Spec.debyeMu k x.1 (x.2 / omegaNorm)) 0 := by
      unfold Spec.debyeMu
      refine continuousAt_const.add (ContinuousAt.div (f := fun _ => x.1 - 1) (g := fun k => 1 + k / (x.2 / omegaNorm))
        continuousAt_const (by fun_prop) (by simp))
    exact hc.tendsto.mono_left nhdsWithin_le_nhds
  unfold Material.muV
  cases cls <;> cases b with
  | none => exact tendsto_const_nhds
  | some x => first | exact tendsto_const_nhds | exact key x rfl

/-- static permeability of a non-magnetic material -/
theorem muV_nonmag {M : Material} (h : M.b = none) (k : ℝ) : M.muV k = 1 := by
  unfold Material.muV; rw [h]; cases M.cls <;> rfl

/-- value of `epsilon` at positive `k` -/
noncomputable def Material.epsV (M : Material) (k : ℝ) : ℝ :=
  match M.epsilon k with
  | .ok e => e
  | .error _ => 0

theorem medium_val {M : Material} (hM : M.cls ≠ .pec) (hp : M.Physical) {k : ℝ} (hk : 0 < k) :
    M.medium k = .ok ⟨M.epsV k, M.muV k⟩ ∧ 0 < M.epsV k := by
  obtain ⟨a, ha, hap⟩ := medium_pos hM hp hk
  have h := ha
  unfold Material.medium at h
  cases he : M.epsilon k with
  | error e => rw [he, error_bind] at h; cases h
  | ok e =>
    rw [he, ok_bind, mu_val hp hk.le, ok_bind] at h
    have hE : M.epsV k = e := by unfold Material.epsV; rw [he]
    rw [hE]
    have := Except.ok.inj h
    rw [ha, ← this]
    refine ⟨rfl, ?_⟩
    have := hap.1
    rw [← Except.ok.inj h] at this
    exact this

/-- all resonance frequencies positive: a dielectric -/
def Material.Dielectric (M : Material) : Prop := M.cls = .lorentz ∧ ∀ p ∈ M.e, 0 < p.wR

theorem epsV_lorentz {M : Material} (hM : M.cls = .lorentz) (hp : M.Physical) {k : ℝ} (hk : 0 < k) :
    M.epsV k = 1 + (M.e.map (lorT k)).sum := by
  unfold Material.epsV
  rw [epsilon_lorentz_ok hk hM hp.osc]
  exact lorentzEps_eq k M.e

theorem dielectric_static {M : Material} (hd : M.Dielectric) (hp : M.Physical) :
    ∃ e0, M.epsilon 0 = .ok e0 ∧ 0 < e0 ∧ Tendsto M.epsV (𝓝[>] 0) (𝓝 e0) := by
  refine ⟨_, epsilon_lorentz_zero hd.1 (fun p h => (hd.2 p h).ne'), ?_, ?_⟩
  · rw [lorentzEps_eq]
    have : 0 ≤ (M.e.map (lorT 0)).sum := by
      apply List.sum_nonneg
      intro x hx
      rw [List.mem_map] at hx
      obtain ⟨p, hpm, rfl⟩ := hx
      unfold lorT
      have := sq_nonneg (p.wR / omegaNorm)
      exact div_nonneg (sq_nonneg _) (by nlinarith)
    linarith
  · rw [lorentzEps_eq]
    have h : Tendsto (fun k => 1 + (M.e.map (lorT k)).sum) (𝓝[>] 0) (𝓝 (1 + (M.e.map (lorT 0)).sum)) := by
      refine tendsto_const_nhds.add (list_sum_tendsto fun p hpm => ?_)
      exact (lorT_cont (hd.2 p hpm).ne').mono_left nhdsWithin_le_nhds
    refine h.congr' ?_
    filter_upwards [self_mem_nhdsWithin] with k hk
    rw [epsV_lorentz hd.1 hp hk]

theorem dielectric_flags {M : Material} (hd : M.Dielectric) : M.sigmaFinite = true ∧ M.dielectric = .ok true := by
  have h1 : isDielectric M.e = true := by
    have : ∀ e : List Osc, (∀ p ∈ e, 0 < p.wR) → isDielectric e = true := by
      intro e
      induction e with
      | nil => intro _; rfl
      | cons p ps ih =>
        intro h
        unfold isDielectric
        rw [if_neg (fun hc => (h p (by simp)).ne' hc.2)]
        exact ih fun q hq => h q (by simp [hq])
    exact this _ hd.2
  have h2 : isSigmaFinite M.e = true := by
    unfold isSigmaFinite
    have : (M.e.filter fun p => decide (p.wR = 0 ∧ ¬ p.wP = 0)) = [] := by
      rw [List.filter_eq_nil_iff]
      intro p hpm
      simp [(hd.2 p hpm).ne']
    rw [this]; rfl
  unfold Material.sigmaFinite Material.dielectric
  rw [hd.1]
  exact ⟨h2, by simp only; rw [h1]⟩

/-- limit of `k² ε_p(k)` for one oscillator -/
noncomputable def plasmaSq (p : Osc) : ℝ := if p.wR = 0 ∧ p.gamma = 0 then (p.wP / omegaNorm) ^ 2 else 0

theorem sq_lorT {p : Osc} (hp : p.nonneg) : Tendsto (fun k => k ^ 2 * lorT k p) (𝓝[>] 0) (𝓝 (plasmaSq p)) := by
  have ho := omegaNorm_pos
  unfold plasmaSq
  split_ifs with h
  · refine tendsto_const_nhds.congr' ?_
    filter_upwards [self_mem_nhdsWithin] with k hk
    have hk : 0 < k := hk
    unfold lorT
    rw [h.1, h.2]
    simp only [zero_div, zero_mul, add_zero]
    field_simp
    ring
  · have h0 : Tendsto (fun k : ℝ => k) (𝓝[>] 0) (𝓝 0) := tendsto_id.mono_left nhdsWithin_le_nhds
    by_cases hg : p.gamma = 0
    · have hR : p.wR ≠ 0 := fun hR => h ⟨hR, hg⟩
      have h1 := (lorT_cont hR).mono_left (nhdsWithin_le_nhds (s := Set.Ioi 0))
      have := (h0.pow 2).mul h1
      simpa using this
    · have hg0 : 0 < p.gamma / omegaNorm := div_pos (lt_of_le_of_ne hp.2 (Ne.symm hg)) ho
      have hb : Tendsto (fun k : ℝ => k * ((p.wP / omegaNorm) ^ 2 / (p.gamma / omegaNorm))) (𝓝[>] 0) (𝓝 0) := by
        simpa using h0.mul_const ((p.wP / omegaNorm) ^ 2 / (p.gamma / omegaNorm))
      refine squeeze_zero' ?_ ?_ hb
      · filter_upwards [self_mem_nhdsWithin] with k hk
        exact mul_nonneg (sq_nonneg _) (lorT_nonneg hk hp)
      · filter_upwards [self_mem_nhdsWithin] with k hk
        have hk : 0 < k := hk
        unfold lorT
        have : (p.wP / omegaNorm) ^ 2 / ((p.wR / omegaNorm) ^ 2 + k ^ 2 + p.gamma / omegaNorm * k) ≤
            (p.wP / omegaNorm) ^ 2 / (p.gamma / omegaNorm * k) := by
          apply div_le_div_of_nonneg_left (sq_nonneg _) (by positivity)
          have := sq_nonneg (p.wR / omegaNorm)
          have := sq_nonneg k
          linarith
        calc k ^ 2 * _ ≤ k ^ 2 * ((p.wP / omegaNorm) ^ 2 / (p.gamma / omegaNorm * k)) := by gcongr
          _ = _ := by
            generalize p.gamma / omegaNorm = g at hg0 ⊢
            field_simp

/-- limit of `k² ε(k)` for a Lorentz material -/
theorem sq_eps_lorentz {M : Material} (hM : M.cls = .lorentz) (hp : M.Physical) :
    Tendsto (fun k => k ^ 2 * M.epsV k) (𝓝[>] 0) (𝓝 ((M.e.map plasmaSq).sum)) := by
  have h0 : Tendsto (fun k : ℝ => k ^ 2) (𝓝[>] 0) (𝓝 0) := by
    have : Continuous (fun x : ℝ => x ^ 2) := by fun_prop
    have := this.tendsto 0
    simp only [ne_eq, OfNat.ofNat_ne_zero, not_false_eq_true, zero_pow] at this
    exact this.mono_left nhdsWithin_le_nhds
  have h1 := h0.add (list_sum_tendsto (f := fun k p => k ^ 2 * lorT k p) (c := plasmaSq) (l := M.e)
    fun p hpm => sq_lorT (hp.osc p hpm))
  rw [zero_add] at h1
  refine h1.congr' ?_
  filter_upwards [self_mem_nhdsWithin] with k hk
  rw [epsV_lorentz hM hp hk, mul_add, mul_one]
  congr 1
  rw [← List.sum_map_mul_left]

theorem lorT_unbounded {p : Osc} (hp : p.nonneg) (hw : p.wP ≠ 0) (hR : p.wR = 0) :
    Tendsto (fun k => 1 / lorT k p) (𝓝[>] 0) (𝓝 0) := by
  have ho := omegaNorm_pos
  have hc : Continuous fun k : ℝ => (k ^ 2 + p.gamma / omegaNorm * k) / (p.wP / omegaNorm) ^ 2 := by fun_prop
  have := hc.tendsto 0
  simp only [ne_eq, OfNat.ofNat_ne_zero, not_false_eq_true, zero_pow, mul_zero, add_zero, zero_div] at this
  refine (this.mono_left nhdsWithin_le_nhds).congr ?_
  intro k
  unfold lorT
  rw [hR]
  simp

/-- a conductor: some oscillator with `wP ≠ 0` and `wR = 0` -/
theorem inv_eps_lorentz {M : Material} (hM : M.cls = .lorentz) (hp : M.Physical)
    (hc : ∃ p ∈ M.e, p.wP ≠ 0 ∧ p.wR = 0) : Tendsto (fun k => 1 / M.epsV k) (𝓝[>] 0) (𝓝 0) := by
  obtain ⟨p, hpm, hw, hR⟩ := hc
  have ho := omegaNorm_pos
  refine squeeze_zero' ?_ ?_ (lorT_unbounded (hp.osc p hpm) hw hR)
  · filter_upwards [self_mem_nhdsWithin] with k hk
    have := (medium_val (by rw [hM]; simp) hp hk).2
    positivity
  · filter_upwards [self_mem_nhdsWithin] with k hk
    have hk : 0 < k := hk
    have hpos : 0 < lorT k p := by
      unfold lorT
      have := lorDen_pos hk (hp.osc p hpm)
      have : 0 < (p.wP / omegaNorm) ^ 2 := by positivity
      positivity
    apply one_div_le_one_div_of_le hpos
    rw [epsV_lorentz hM hp hk]
    have : lorT k p ≤ (M.e.map (lorT k)).sum := by
      apply List.single_le_sum
      · intro x hx
        rw [List.mem_map] at hx
        obtain ⟨q, hqm, rfl⟩ := hx
        exact lorT_nonneg hk (hp.osc q hqm)
      · exact List.mem_map_of_mem hpm
    linarith

theorem epsV_smith {M : Material} (hM : M.cls = .smith) (hp : M.Physical) {p : Osc} (he : M.e = [p]) {k : ℝ} (hk : 0 < k) :
    M.epsV k = 1 + (p.wP / omegaNorm) ^ 2 / (k ^ 2 + p.gamma / omegaNorm * k) *
          (1 - 0.49 * (p.gamma / omegaNorm) / (k + p.gamma / omegaNorm)) := by
  have hg : 0 ≤ p.gamma / omegaNorm := div_nonneg (hp.osc p (by simp [he])).2 omegaNorm_pos.le
  have h1 : 0 < k ^ 2 + p.gamma / omegaNorm * k := by positivity
  have h2 : 0 < k + p.gamma / omegaNorm := by linarith
  have ht : Material.smithTerm k p = .ok ((p.wP / omegaNorm) ^ 2 / (k ^ 2 + p.gamma / omegaNorm * k) *
      (1 - 0.49 * (p.gamma / omegaNorm) / (k + p.gamma / omegaNorm))) := by
    unfold Material.smithTerm
    rw [cdiv_ok h1.ne', ok_bind, cdiv_ok h2.ne', ok_bind]
  have : M.epsilon k = .ok (1 + (p.wP / omegaNorm) ^ 2 / (k ^ 2 + p.gamma / omegaNorm * k) *
          (1 - 0.49 * (p.gamma / omegaNorm) / (k + p.gamma / omegaNorm))) := by
    unfold Material.epsilon; rw [hM]; simp only; rw [if_pos (hp.one hM), he]
    exact foldlM_smith ht
  unfold Material.epsV; rw [this]

/-- a conductor with finite conductivity: no resonance-free undamped oscillator, at least one with `wP ≠ 0`, `wR = 0` -/
structure Material.Conductor (M : Material) : Prop where
  cls : M.cls ≠ .pec
  free : ∃ p ∈ M.e, p.wP ≠ 0 ∧ p.wR = 0
  damped : ∀ p ∈ M.e, p.wP ≠ 0 → p.wR = 0 → 0 < p.gamma

theorem conductor_flags {M : Material} (hc : M.Conductor) : M.sigmaFinite = true ∧ M.dielectric = .ok false := by
  have h1 : isDielectric M.e = false := by
    have : ∀ e : List Osc, (∃ p ∈ e, p.wP ≠ 0 ∧ p.wR = 0) → isDielectric e = false := by
      intro e
      induction e with
      | nil => rintro ⟨p, hp, -⟩; simp at hp
      | cons p ps ih =>
        rintro ⟨q, hq, h⟩
        unfold isDielectric
        split_ifs with hp
        · rfl
        · rcases List.mem_cons.1 hq with rfl | hq
          · exact absurd h hp
          · exact ih ⟨q, hq, h⟩
    exact this _ hc.free
  have h2 : isSigmaFinite M.e = true := by
    unfold isSigmaFinite
    cases hm : ((M.e.filter fun p => decide (p.wR = 0 ∧ ¬ p.wP = 0)).map Osc.gamma).min? with
    | none => rfl
    | some g =>
      have := List.min?_mem hm
      rw [List.mem_map] at this
      obtain ⟨p, hp, rfl⟩ := this
      rw [List.mem_filter] at hp
      have h := hp.2
      simp only [decide_eq_true_eq] at h
      simp [(hc.damped p hp.1 h.2 h.1).ne']
  have hcls := hc.cls
  unfold Material.sigmaFinite Material.dielectric
  cases h : M.cls with
  | pec => exact absurd h hcls
  | smith => exact ⟨h2, by simp only; rw [h1]⟩
  | lorentz => exact ⟨h2, by simp only; rw [h1]⟩

theorem conductor_limits {M : Material} (hc : M.Conductor) (hp : M.Physical) :
    Tendsto (fun k => 1 / M.epsV k) (𝓝[>] 0) (𝓝 0) ∧ Tendsto (fun k => k ^ 2 * M.epsV k) (𝓝[>] 0) (𝓝 0) := by
  have ho := omegaNorm_pos
  cases h : M.cls with
  | pec => exact absurd h hc.cls
  | lorentz =>
    refine ⟨inv_eps_lorentz h hp hc.free, ?_⟩
    have hs := sq_eps_lorentz h hp
    have : (M.e.map plasmaSq).sum = 0 := by
      apply List.sum_eq_zero
      intro x hx
      rw [List.mem_map] at hx
      obtain ⟨p, hpm, rfl⟩ := hx
      unfold plasmaSq
      split_ifs with hh
      · by_contra hw
        have : p.wP ≠ 0 := by rintro hw'; rw [hw'] at hw; simp at hw
        exact (hc.damped p hpm this hh.1).ne' hh.2
      · rfl
    rwa [this] at hs
  | smith =>
    obtain ⟨p, hpe⟩ := List.length_eq_one_iff.1 (hp.one h)
    obtain ⟨q, hq, hw, hR⟩ := hc.free
    rw [hpe, List.mem_singleton] at hq
    subst hq
    have hg := hc.damped q (by simp [hpe]) hw hR
    have hg0 : 0 < q.gamma / omegaNorm := div_pos hg ho
    have hw0 : 0 < (q.wP / omegaNorm) ^ 2 := by positivity
    have h0 : Tendsto (fun k : ℝ => k) (𝓝[>] 0) (𝓝 0) := tendsto_id.mono_left nhdsWithin_le_nhds
    set g := q.gamma / omegaNorm with hgd
    set W := (q.wP / omegaNorm) ^ 2 with hWd
    have hf : ∀ k : ℝ, 0 < k → 0.51 ≤ 1 - 0.49 * g / (k + g) ∧ 1 - 0.49 * g / (k + g) ≤ 1 := by
      intro k hk
      have h2 : 0 < k + g := by linarith
      have h3 : 0.49 * g / (k + g) ≤ 0.49 := by rw [div_le_iff₀ h2]; nlinarith
      have h4 : 0 ≤ 0.49 * g / (k + g) := by positivity
      constructor
      · norm_num at h3 ⊢; linarith
      · linarith
    constructor
    · have hb : Tendsto (fun k : ℝ => (k ^ 2 + g * k) / (W * 0.51)) (𝓝[>] 0) (𝓝 0) := by
        have hcn : Continuous fun k : ℝ => (k ^ 2 + g * k) / (W * 0.51) := by fun_prop
        have := hcn.tendsto 0
        simp only [ne_eq, OfNat.ofNat_ne_zero, not_false_eq_true, zero_pow, mul_zero, add_zero, zero_div] at this
        exact this.mono_left nhdsWithin_le_nhds
      refine squeeze_zero' ?_ ?_ hb
      · filter_upwards [self_mem_nhdsWithin] with k hk
        have := (medium_val hc.cls hp hk).2
        positivity
      · filter_upwards [self_mem_nhdsWithin] with k hk
        have hk : 0 < k := hk
        have hd : 0 < k ^ 2 + g * k := by positivity
        have h5 : W * 0.51 / (k ^ 2 + g * k) ≤ M.epsV k := by
          rw [epsV_smith h hp hpe hk]
          have : W / (k ^ 2 + g * k) * 0.51 ≤ W / (k ^ 2 + g * k) * (1 - 0.49 * g / (k + g)) := by
            have := (hf k hk).1
            gcongr
          have e : W * 0.51 / (k ^ 2 + g * k) = W / (k ^ 2 + g * k) * 0.51 := by ring
          rw [e]; linarith
        have h6 := one_div_le_one_div_of_le (by positivity) h5
        rwa [one_div_div] at h6
    · have hb : Tendsto (fun k : ℝ => k ^ 2 + k * (W / g)) (𝓝[>] 0) (𝓝 0) := by
        have hcn : Continuous fun k : ℝ => k ^ 2 + k * (W / g) := by fun_prop
        have := hcn.tendsto 0
        simp only [ne_eq, OfNat.ofNat_ne_zero, not_false_eq_true, zero_pow, zero_mul, add_zero] at this
        exact this.mono_left nhdsWithin_le_nhds
      refine squeeze_zero' ?_ ?_ hb
      · filter_upwards [self_mem_nhdsWithin] with k hk
        have := (medium_val hc.cls hp hk).2
        positivity
      · filter_upwards [self_mem_nhdsWithin] with k hk
        have hk : 0 < k := hk
        rw [epsV_smith h hp hpe hk]
        have hd : 0 < k ^ 2 + g * k := by positivity
        have h1 : W / (k ^ 2 + g * k) * (1 - 0.49 * g / (k + g)) ≤ W / (k ^ 2 + g * k) :=
          mul_le_of_le_one_right (by positivity) (hf k hk).2
        have h2 : W / (k ^ 2 + g * k) ≤ W / (g * k) := by
          apply div_le_div_of_nonneg_left hw0.le (by positivity)
          have := sq_nonneg k
          linarith
        have h3 : k ^ 2 * (W / (g * k)) = k * (W / g) := by field_simp
        calc k ^ 2 * (1 + W / (k ^ 2 + g * k) * (1 - 0.49 * g / (k + g))) ≤ k ^ 2 * (1 + W / (g * k)) := by
              have : 1 + W / (k ^ 2 + g * k) * (1 - 0.49 * g / (k + g)) ≤ 1 + W / (g * k) := by linarith
              gcongr
          _ = k ^ 2 + k * (W / g) := by rw [mul_add, h3, mul_one]

end CasSph
