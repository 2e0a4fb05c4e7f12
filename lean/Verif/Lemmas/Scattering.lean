import Verif.Lemmas.ScatTable
import Verif.Lemmas.Materials

/-! # Auxiliary lemmas for `Model/Scattering` -/

namespace CasSph

open Spec

/-- positive permittivity and permeability -/
def Medium.Pos (a : Medium) : Prop := 0 < a.eps ∧ 0 < a.mu

theorem Medium.n_pos {a : Medium} (h : a.Pos) : 0 < a.n := Real.sqrt_pos.2 (mul_pos h.1 h.2)

/-- denominators of the form `w_e id_i - w_i kd_e` -/
theorem mieDen_pos {wi we D kd : ℝ} (hi : 0 < wi) (he : 0 < we) (hid : 0 < D) (hkd : kd < 0) :
    0 < we * D - wi * kd := by
  have h1 := mul_pos he hid
  have h2 := mul_neg_of_pos_of_neg hi hkd
  linarith

theorem mieCore_ok {l : ℕ} {kr : ℝ} {a b : Medium} {Bi Be : Bes} (ha : a.Pos) (hb : b.Pos)
    (hid : 0 < idT l (kr * a.n) Bi) (hkd : kdT l (kr * b.n) Be < 0) :
    mieCore l kr a b Bi Be = .ok
      ⟨(b.mu * idT l (kr * a.n) Bi - a.mu * idT l (kr * b.n) Be) /
          (b.mu * idT l (kr * a.n) Bi - a.mu * kdT l (kr * b.n) Be) * ((-1) ^ l * Real.pi * 0.5),
        (b.eps * idT l (kr * a.n) Bi - a.eps * idT l (kr * b.n) Be) /
          (b.eps * idT l (kr * a.n) Bi - a.eps * kdT l (kr * b.n) Be) * ((-1) ^ l * Real.pi * 0.5),
        Be.i1 - Be.k1⟩ := by
  unfold mieCore
  simp only
  rw [cdiv_ok (mieDen_pos ha.2 hb.2 hid hkd).ne', ok_bind, cdiv_ok (mieDen_pos ha.1 hb.1 hid hkd).ne', ok_bind]

theorem mieIntCore_ok {l : ℕ} {kr : ℝ} {a b : Medium} {Bi Be : Bes} (ha : a.Pos) (hb : b.Pos)
    (hid : 0 < idT l (kr * a.n) Bi) (hkd : kdT l (kr * b.n) Be < 0) :
    mieIntCore l kr a b Bi Be = .ok
      ⟨(b.mu * kdT l (kr * a.n) Bi - a.mu * kdT l (kr * b.n) Be) /
          (b.mu * idT l (kr * a.n) Bi - a.mu * kdT l (kr * b.n) Be) * ((-1) ^ l * 2 / Real.pi),
        (b.eps * kdT l (kr * a.n) Bi - a.eps * kdT l (kr * b.n) Be) /
          (b.eps * idT l (kr * a.n) Bi - a.eps * kdT l (kr * b.n) Be) * ((-1) ^ l * 2 / Real.pi),
        Bi.k1 - Bi.i1⟩ := by
  unfold mieIntCore
  simp only
  rw [cdiv_ok (mieDen_pos ha.2 hb.2 hid hkd).ne', ok_bind, cdiv_ok (mieDen_pos ha.1 hb.1 hid hkd).ne', ok_bind]

theorem miePECCore_ok {l : ℕ} {kr : ℝ} {b : Medium} {Be : Bes} (hkd : kdT l (kr * b.n) Be < 0) :
    miePECCore l kr b Be = .ok
      ⟨(-1) ^ l * Real.pi * 0.5,
        (-1) ^ l * Real.pi * 0.5 * idT l (kr * b.n) Be / kdT l (kr * b.n) Be, Be.i1 - Be.k1⟩ := by
  unfold miePECCore
  simp only
  rw [cdiv_ok hkd.ne, ok_bind]

theorem miePECIntCore_ok {l : ℕ} {kr : ℝ} {a : Medium} {Bi : Bes} (hid : 0 < idT l (kr * a.n) Bi) :
    miePECIntCore l kr a Bi = .ok
      ⟨(-1) ^ l * 2 / Real.pi,
        (-1) ^ l * 2 / Real.pi * (kdT l (kr * a.n) Bi / idT l (kr * a.n) Bi), Bi.k1 - Bi.i1⟩ := by
  unfold miePECIntCore
  simp only
  rw [cdiv_ok hid.ne', ok_bind]

theorem mie_pec {Ti Te : BesTable} {m1 m2 : Material} (h : m1.cls = .pec) {l : ℕ} {k r : ℝ} {b : Medium}
    (hb : m2.medium k = .ok b) :
    mie Ti Te m1 m2 l k r = miePECCore l (k * r) b (Te l (k * r * b.n)) := by
  unfold mie; rw [h]; simp only; rw [hb, ok_bind]

theorem mie_diel {Ti Te : BesTable} {m1 m2 : Material} (h : m1.cls ≠ .pec) {l : ℕ} {k r : ℝ} {a b : Medium}
    (ha : m1.medium k = .ok a) (hb : m2.medium k = .ok b) :
    mie Ti Te m1 m2 l k r = mieCore l (k * r) a b (Ti l (k * r * a.n)) (Te l (k * r * b.n)) := by
  unfold mie
  cases hc : m1.cls with
  | pec => exact absurd hc h
  | smith => simp only; rw [ha, ok_bind, hb, ok_bind]
  | lorentz => simp only; rw [ha, ok_bind, hb, ok_bind]

theorem mieInternal_pec {Ti Te : BesTable} {m1 m2 : Material} (h : m2.cls = .pec) {l : ℕ} {k r : ℝ} {a : Medium}
    (ha : m1.medium k = .ok a) :
    mieInternal Ti Te m1 m2 l k r = miePECIntCore l (k * r) a (Ti l (k * r * a.n)) := by
  unfold mieInternal; rw [h]; simp only; rw [ha, ok_bind]

theorem mieInternal_diel {Ti Te : BesTable} {m1 m2 : Material} (h : m2.cls ≠ .pec) {l : ℕ} {k r : ℝ} {a b : Medium}
    (ha : m1.medium k = .ok a) (hb : m2.medium k = .ok b) :
    mieInternal Ti Te m1 m2 l k r = mieIntCore l (k * r) a b (Ti l (k * r * a.n)) (Te l (k * r * b.n)) := by
  unfold mieInternal
  cases hc : m2.cls with
  | pec => exact absurd hc h
  | smith => simp only; rw [hb, ok_bind, ha, ok_bind]
  | lorentz => simp only; rw [hb, ok_bind, ha, ok_bind]

theorem medium_ne_pec {M : Material} {k : ℝ} {a : Medium} (h : M.medium k = .ok a) : M.cls ≠ .pec := by
  intro hc
  unfold Material.medium Material.epsilon at h
  rw [hc] at h
  simp only [error_bind] at h
  cases h

theorem medium_ok {M : Material} {k e m : ℝ} (he : M.epsilon k = .ok e) (hm : M.mu k = .ok m) :
    M.medium k = .ok ⟨e, m⟩ := by
  unfold Material.medium
  rw [he, ok_bind, hm, ok_bind]

/-- parameters of a material that make `epsilon` and `mu` positive for `k > 0` -/
structure Material.Physical (M : Material) : Prop where
  osc : ∀ p ∈ M.e, 0 ≤ p.wR ∧ 0 ≤ p.gamma
  mag : ∀ b, M.b = some b → 0 < b.1 ∧ 0 < b.2
  one : M.cls = .smith → M.e.length = 1

theorem foldlM_smith {k : ℝ} {p : Osc} {v : ℝ} (h : Material.smithTerm k p = .ok v) :
    [p].foldlM (fun acc p => do let t ← Material.smithTerm k p; (.ok (acc + t) : Res ℝ)) 1 = .ok (1 + v) := by
  rw [List.foldlM_cons, h]; simp only [ok_bind]; rfl

theorem medium_pos {M : Material} (hM : M.cls ≠ .pec) (hp : M.Physical) {k : ℝ} (hk : 0 < k) :
    ∃ a, M.medium k = .ok a ∧ a.Pos := by
  have hmu : ∃ m, M.mu k = .ok m ∧ 0 < m := by
    rw [mu_ok hk.le (fun x hx => (hp.mag x hx).2)]
    refine ⟨_, rfl, ?_⟩
    rcases M with ⟨cls, e, b⟩
    have key : ∀ x, b = some x → 0 < Spec.debyeMu k x.1 (x.2 / omegaNorm) := by
      intro x hx
      obtain ⟨h1, h2⟩ := hp.mag x hx
      have hw : 0 < x.2 / omegaNorm := div_pos h2 omegaNorm_pos
      have ht : 0 < k / (x.2 / omegaNorm) := div_pos hk hw
      unfold Spec.debyeMu
      generalize k / (x.2 / omegaNorm) = t at ht ⊢
      have : 1 + (x.1 - 1) / (1 + t) = (t + x.1) / (1 + t) := by
        have : 1 + t ≠ 0 := by linarith
        field_simp; ring
      rw [this]; positivity
    cases cls <;> cases b with
    | none => norm_num
    | some x => first | exact absurd rfl hM | exact key x rfl
  have heps : ∃ e, M.epsilon k = .ok e ∧ 0 < e := by
    cases hc : M.cls with
    | pec => exact absurd hc hM
    | lorentz =>
      refine ⟨_, epsilon_lorentz_ok hk hc hp.osc, ?_⟩
      rw [lorentzEps_eq]
      have : 0 ≤ (M.e.map (lorT k)).sum := by
        apply List.sum_nonneg
        intro x hx
        rw [List.mem_map] at hx
        obtain ⟨p, hpm, rfl⟩ := hx
        exact lorT_nonneg hk (hp.osc p hpm)
      linarith
    | smith =>
      obtain ⟨p, hpe⟩ := List.length_eq_one_iff.1 (hp.one hc)
      have hg : 0 ≤ p.gamma / omegaNorm := div_nonneg (hp.osc p (by simp [hpe])).2 omegaNorm_pos.le
      have h1 : 0 < k ^ 2 + p.gamma / omegaNorm * k := by positivity
      have h2 : 0 < k + p.gamma / omegaNorm := by linarith
      have ht : Material.smithTerm k p = .ok ((p.wP / omegaNorm) ^ 2 / (k ^ 2 + p.gamma / omegaNorm * k) *
          (1 - 0.49 * (p.gamma / omegaNorm) / (k + p.gamma / omegaNorm))) := by
        unfold Material.smithTerm
        rw [cdiv_ok h1.ne', ok_bind, cdiv_ok h2.ne', ok_bind]
      refine ⟨1 + (p.wP / omegaNorm) ^ 2 / (k ^ 2 + p.gamma / omegaNorm * k) *
          (1 - 0.49 * (p.gamma / omegaNorm) / (k + p.gamma / omegaNorm)), ?_, ?_⟩
      · unfold Material.epsilon; rw [hc]; simp only; rw [if_pos (hp.one hc), hpe]
        exact foldlM_smith ht
      · have h3 : 0.49 * (p.gamma / omegaNorm) / (k + p.gamma / omegaNorm) ≤ 1 := by
          rw [div_le_one h2]; linarith
        have : 0 ≤ (p.wP / omegaNorm) ^ 2 / (k ^ 2 + p.gamma / omegaNorm * k) *
          (1 - 0.49 * (p.gamma / omegaNorm) / (k + p.gamma / omegaNorm)) :=
          mul_nonneg (by positivity) (by linarith)
        linarith
  obtain ⟨e, he, he0⟩ := heps
  obtain ⟨m, hm, hm0⟩ := hmu
  exact ⟨⟨e, m⟩, medium_ok he hm, he0, hm0⟩

end CasSph
