import Verif.Lemmas.StaticPos

/-! # Sign, bounds and convergence of the zero-frequency contribution (C92, C93) -/

namespace CasSph

open Spec Filter Topology Nat Matrix

/-! ## Static Mie coefficients: sign and size -/

/-- `σ = 1`: the sphere is at zero frequency at least as polarisable as the medium (perfect conductor, conductor, or
dielectric with `ε ≥ ε_md`); `σ = -1`: a dielectric with `ε ≤ ε_md`. -/
def ElectricSign (m md : Material) (σ : ℝ) : Prop :=
  (σ = 1 ∧ (m.cls = .pec ∨ m.Conductor ∨ (m.Dielectric ∧ ∃ e1 e2, m.epsilon 0 = .ok e1 ∧ md.epsilon 0 = .ok e2 ∧ e2 ≤ e1))) ∨
  (σ = -1 ∧ m.Dielectric ∧ ∃ e1 e2, m.epsilon 0 = .ok e1 ∧ md.epsilon 0 = .ok e2 ∧ e1 ≤ e2)

/-- `σ = 1`: the sphere is not a perfect conductor and has static permeability `μ ≥ μ_md`; `σ = -1`: perfect conductor
(it expels the magnetic field) or `μ ≤ μ_md`. -/
def MagneticSign (m md : Material) (σ : ℝ) : Prop :=
  (σ = 1 ∧ m.cls ≠ .pec ∧ ∃ u1 u2, m.mu 0 = .ok u1 ∧ md.mu 0 = .ok u2 ∧ u2 ≤ u1) ∨
  (σ = -1 ∧ (m.cls = .pec ∨ ∃ u1 u2, m.mu 0 = .ok u1 ∧ md.mu 0 = .ok u2 ∧ u1 ≤ u2))

theorem contrast_bound {l u v : ℝ} (hl : 0 < l) (hu : 0 < u) (hv : 0 < v) :
    |(l + 1) * ((u - v) / (l * u + (l + 1) * v))| ≤ (l + 1) / l ∧
    (v ≤ u → 0 ≤ (l + 1) * ((u - v) / (l * u + (l + 1) * v))) ∧
    (u ≤ v → (l + 1) * ((u - v) / (l * u + (l + 1) * v)) ≤ 0) := by
  have hd : 0 < l * u + (l + 1) * v := by positivity
  refine ⟨?_, fun h => mul_nonneg (by positivity) (div_nonneg (by linarith) hd.le),
    fun h => mul_nonpos_of_nonneg_of_nonpos (by positivity) (div_nonpos_of_nonpos_of_nonneg (by linarith) hd.le)⟩
  rw [abs_mul, abs_div, abs_of_pos hd, abs_of_pos (by positivity : 0 < l + 1), div_eq_mul_inv (l + 1)]
  refine mul_le_mul_of_nonneg_left ?_ (by positivity)
  rw [← one_div, div_le_div_iff₀ hd hl]
  have : |u - v| ≤ u + v := by rw [abs_le]; constructor <;> linarith
  nlinarith

theorem mieK0_static {frac : ℝ → ℝ → ℝ} {m1 m2 : Material} (h : m1.HasStatic) (hd2 : m2.Dielectric) (h2 : m2.Physical)
    {l : ℕ} (hl : 1 ≤ l) {R : ℝ} {c : Mie} (hc : mieK0 frac m1 m2 l R = .ok c) :
    (∀ σ, ElectricSign m1 m2 σ → ∃ A, 0 ≤ A ∧ A ≤ kappaL l ∧ c.TM * Real.exp c.ln = -σ * (-1) ^ l * A) ∧
    (∀ σ, MagneticSign m1 m2 σ → ∃ A, 0 ≤ A ∧ A ≤ kappaL l ∧ c.TE * Real.exp c.ln = -σ * (-1) ^ l * A) := by
  obtain ⟨e0, he, he0, -⟩ := dielectric_static hd2 h2
  have l0 : (0 : ℝ) < l := by exact_mod_cast hl
  have mu2 := muV_pos h2 le_rfl
  have hmu2 := mu_val h2 (le_refl (0 : ℝ))
  have E0 : 0 < 1 / (((2 * l + 1)‼ : ℝ) * ((2 * l - 1)‼ : ℝ)) := by
    have := dfac_pos (2 * l + 1); have := dfac_pos (2 * l - 1); positivity
  have hk : kappaL l = (l + 1) / l * (1 / (((2 * l + 1)‼ : ℝ) * ((2 * l - 1)‼ : ℝ))) := rfl
  have hexp := exp_lnc hl
  have fin : ∀ {σ t X : ℝ}, X = (-1) ^ l * t → |t| ≤ (l + 1) / l → (σ = 1 → t ≤ 0) → (σ = -1 → 0 ≤ t) → (σ = 1 ∨ σ = -1) →
      ∃ A, 0 ≤ A ∧ A ≤ kappaL l ∧ X * Real.exp (-Real.log (2 * l + 1) - 2 * ln2dbl l) = -σ * (-1) ^ l * A := by
    intro σ t X hX ht hn hp hσ
    refine ⟨|t| * (1 / (((2 * l + 1)‼ : ℝ) * ((2 * l - 1)‼ : ℝ))), by positivity, ?_, ?_⟩
    · rw [hk]; exact mul_le_mul_of_nonneg_right ht E0.le
    · rw [hexp, hX]
      rcases hσ with h | h
      · rw [abs_of_nonpos (hn h), h]; ring
      · rw [abs_of_nonneg (hp h), h]; ring
  have sgn : ∀ {m : Material} {σ}, ElectricSign m m2 σ → σ = 1 ∨ σ = -1 := fun h => h.imp (·.1) (·.1)
  have sgn' : ∀ {m : Material} {σ}, MagneticSign m m2 σ → σ = 1 ∨ σ = -1 := fun h => h.imp (·.1) (·.1)
  have hb1 : |-((l + 1 : ℝ) / l)| ≤ (l + 1) / l := by rw [abs_neg, abs_of_pos (by positivity)]
  have hneg : -((l + 1 : ℝ) / l) ≤ 0 := neg_nonpos.mpr (by positivity)
  -- magnetic part, sphere that is not a perfect conductor
  have mag : m1.cls ≠ .pec → m1.Physical → ∀ σ, MagneticSign m1 m2 σ → ∃ A, 0 ≤ A ∧ A ≤ kappaL l ∧
      (-1) ^ l * (-(l + 1) * (m1.muV 0 - m2.muV 0) / (l * (m1.muV 0 + m2.muV 0) + m2.muV 0)) *
        Real.exp (-Real.log (2 * l + 1) - 2 * ln2dbl l) = -σ * (-1) ^ l * A := by
    intro hne h1 σ hσ
    have mu1 := muV_pos h1 le_rfl
    obtain ⟨b1, b2, b3⟩ := contrast_bound l0 mu1 mu2
    refine fin (t := -((l + 1) * ((m1.muV 0 - m2.muV 0) / (l * m1.muV 0 + (l + 1) * m2.muV 0)))) ?_ (by rwa [abs_neg]) ?_ ?_ (sgn' hσ)
    · rw [show (l : ℝ) * (m1.muV 0 + m2.muV 0) + m2.muV 0 = l * m1.muV 0 + (l + 1) * m2.muV 0 by ring]; ring
    · intro h
      rcases hσ with ⟨-, -, u1, u2, q1, q2, q⟩ | ⟨hm, -⟩
      · rw [mu_val h1 le_rfl] at q1; rw [hmu2] at q2
        injection q1 with q1; injection q2 with q2
        subst q1; subst q2
        linarith [b2 q]
      · exfalso; rw [h] at hm; norm_num at hm
    · intro h
      rcases hσ with ⟨hm, -⟩ | ⟨-, hq⟩
      · exfalso; rw [h] at hm; norm_num at hm
      · rcases hq with hq | ⟨u1, u2, q1, q2, q⟩
        · exact absurd hq hne
        rw [mu_val h1 le_rfl] at q1; rw [hmu2] at q2
        injection q1 with q1; injection q2 with q2
        subst q1; subst q2
        linarith [b3 q]
  rw [mieK0_start hd2 h2 he hl] at hc
  rcases h with hpec | ⟨hd1, h1⟩ | ⟨hc1, h1⟩
  · rw [hpec] at hc
    simp only [] at hc
    injection hc with hc
    subst hc
    refine ⟨fun σ hσ => fin (t := -((l + 1) / l)) (by ring) hb1 (fun _ => hneg) ?_ (sgn hσ),
      fun σ hσ => fin (t := 1) (by ring) ?_ ?_ (fun _ => zero_le_one) (sgn' hσ)⟩
    · intro h
      rcases hσ with ⟨hm, -⟩ | ⟨-, hm, -⟩
      · exfalso; rw [h] at hm; norm_num at hm
      · exfalso; have := hm.1; rw [hpec] at this; cases this
    · rw [abs_one, le_div_iff₀ l0]; linarith
    · intro h
      rcases hσ with ⟨-, hm, -⟩ | ⟨hm, -⟩
      · exact absurd hpec hm
      · exfalso; rw [h] at hm; norm_num at hm
  · have hne : m1.cls ≠ .pec := by rw [hd1.1]; simp
    obtain ⟨e1, he1, he10, -⟩ := dielectric_static hd1 h1
    have mu1 := muV_pos h1 le_rfl
    obtain ⟨f1, f2⟩ := dielectric_flags hd1
    rw [hd1.1] at hc
    simp only [] at hc
    rw [mu_val h1 le_rfl, ok_bind, f1, f2] at hc
    simp only [ok_bind, not_true_eq_false, if_false, if_true] at hc
    rw [he1] at hc
    simp only [ok_bind] at hc
    have s1 : Real.sqrt (m1.muV 0 * e1) ^ 2 = m1.muV 0 * e1 := Real.sq_sqrt (by positivity)
    have s2 : Real.sqrt (e0 * m2.muV 0) ^ 2 = e0 * m2.muV 0 := Real.sq_sqrt (by positivity)
    rw [s1, s2, cdiv_ok (by positivity), ok_bind, cdiv_ok (by positivity), ok_bind] at hc
    injection hc with hc
    subst hc
    refine ⟨fun σ hσ => ?_, fun σ hσ => mag hne h1 σ hσ⟩
    obtain ⟨b1, b2, b3⟩ := contrast_bound l0 he10 he0
    refine fin (t := -((l + 1) * ((e1 - e0) / (l * e1 + (l + 1) * e0)))) ?_ (by rwa [abs_neg]) ?_ ?_ (sgn hσ)
    · rw [show m2.muV 0 * (m1.muV 0 * e1) - m1.muV 0 * (e0 * m2.muV 0) = (m1.muV 0 * m2.muV 0) * (e1 - e0) by ring,
        show (l : ℝ) * m2.muV 0 * (m1.muV 0 * e1) + (l + 1) * m1.muV 0 * (e0 * m2.muV 0) =
          (m1.muV 0 * m2.muV 0) * (l * e1 + (l + 1) * e0) by ring, mul_div_mul_left _ _ (by positivity)]
      ring
    · intro h
      rcases hσ with ⟨-, hq⟩ | ⟨hm, -⟩
      · rcases hq with hq | hq | ⟨-, u1, u2, q1, q2, q⟩
        · exact absurd hq hne
        · exfalso
          obtain ⟨g1, g2⟩ := conductor_flags hq
          rw [f2] at g2; cases g2
        · rw [he1] at q1; rw [he] at q2
          injection q1 with q1; injection q2 with q2
          subst q1; subst q2
          linarith [b2 q]
      · exfalso; rw [h] at hm; norm_num at hm
    · intro h
      rcases hσ with ⟨hm, -⟩ | ⟨-, -, u1, u2, q1, q2, q⟩
      · exfalso; rw [h] at hm; norm_num at hm
      · rw [he1] at q1; rw [he] at q2
        injection q1 with q1; injection q2 with q2
        subst q1; subst q2
        linarith [b3 q]
  · have hne := hc1.cls
    have mu1 := muV_pos h1 le_rfl
    obtain ⟨f1, f2⟩ := conductor_flags hc1
    rcases hcl : m1.cls with _ | _ | _ <;> rw [hcl] at hc <;> simp only [] at hc
    case pec => exact absurd hcl hne
    all_goals
      rw [mu_val h1 le_rfl, ok_bind, f1, f2] at hc
      simp only [ok_bind, not_true_eq_false, if_false] at hc
      rw [cdiv_ok (by positivity), ok_bind] at hc
      simp only [Bool.false_eq_true, if_false] at hc
      injection hc with hc
      subst hc
      refine ⟨fun σ hσ => fin (t := -((l + 1) / l)) (by ring) hb1 (fun _ => hneg) ?_ (sgn hσ), fun σ hσ => mag hne h1 σ hσ⟩
      intro h
      rcases hσ with ⟨hm, -⟩ | ⟨-, hm, -⟩
      · exfalso; rw [h] at hm; norm_num at hm
      · exfalso
        obtain ⟨g1, g2⟩ := dielectric_flags hm
        rw [f2] at g2; cases g2

/-- Every covered material has one of the two signs. -/
theorem sign_total {m md : Material} (h : m.HasStatic) (hd : md.Dielectric) (hp : md.Physical) :
    (∃ σ, ElectricSign m md σ) ∧ ∃ σ, MagneticSign m md σ := by
  obtain ⟨e0, he, -, -⟩ := dielectric_static hd hp
  have mag : m.cls ≠ .pec → m.Physical → ∃ σ, MagneticSign m md σ := by
    intro hne h1
    rcases le_total (m.muV 0) (md.muV 0) with hle | hle
    · exact ⟨-1, .inr ⟨rfl, .inr ⟨_, _, mu_val h1 le_rfl, mu_val hp le_rfl, hle⟩⟩⟩
    · exact ⟨1, .inl ⟨rfl, hne, _, _, mu_val h1 le_rfl, mu_val hp le_rfl, hle⟩⟩
  rcases h with h | ⟨h, h'⟩ | ⟨h, h'⟩
  · exact ⟨⟨1, .inl ⟨rfl, .inl h⟩⟩, ⟨-1, .inr ⟨rfl, .inl h⟩⟩⟩
  · refine ⟨?_, mag (by rw [h.1]; simp) h'⟩
    obtain ⟨e1, he1, -, -⟩ := dielectric_static h h'
    rcases le_total e1 e0 with hle | hle
    · exact ⟨-1, .inr ⟨rfl, h, _, _, he1, he, hle⟩⟩
    · exact ⟨1, .inl ⟨rfl, .inr (.inr ⟨h, _, _, he1, he, hle⟩)⟩⟩
  · exact ⟨⟨1, .inl ⟨rfl, .inr (.inl h)⟩⟩, mag h.cls h'⟩

theorem ElectricSign.sign {m md : Material} {σ : ℝ} (h : ElectricSign m md σ) : σ = 1 ∨ σ = -1 := h.imp (·.1) (·.1)
theorem MagneticSign.sign {m md : Material} {σ : ℝ} (h : MagneticSign m md σ) : σ = 1 ∨ σ = -1 := h.imp (·.1) (·.1)

/-! ## The static determinants -/

/-- Two separate spheres, their static Mie coefficients computed by `mie_k0`. -/
structure StaticPair (frac : ℝ → ℝ → ℝ) (mA mB md : Material) (r1 r2 L : ℝ) (a0 b0 : MieCoef) : Prop where
  hA : mA.HasStatic
  hB : mB.HasStatic
  hd : md.Dielectric
  hp : md.Physical
  h1 : 0 < r1
  h2 : 0 < r2
  sep : r1 + r2 < L
  ha : ∀ l, 1 ≤ l → mieK0 frac mA md l r1 = .ok ⟨a0.TE l, a0.TM l, a0.ln l⟩
  hb : ∀ l, 1 ≤ l → mieK0 frac mB md l r2 = .ok ⟨b0.TE l, b0.TM l, b0.ln l⟩

theorem static_core {r1 r2 L : ℝ} (h1 : 0 < r1) (h2 : 0 < r2) (hL : 0 < L) {m l0 : ℕ} (hl0 : 1 ≤ l0) (hml : m ≤ l0) {σa σb : ℝ} {a b : ℕ → ℝ}
    (ha : ∀ l, 1 ≤ l → ∃ A, 0 ≤ A ∧ A ≤ kappaL l ∧ a l = σa * (-1) ^ l * A)
    (hb : ∀ l, 1 ≤ l → ∃ A, 0 ≤ A ∧ A ≤ kappaL l ∧ b l = σb * (-1) ^ l * A) :
    ∃ H : ℕ → ℕ → ℝ, (∀ i s, |H i s| ≤ binomArr (r1 / L) (r2 / L) (l0 + i) (l0 + s)) ∧
      ∀ n p, (1 - staticRoundTrip (n := n) (p := p) (l0) r1 r2 L (fun i => a (l0 + i.1)) (fun s => b (l0 + s.1))
        (of fun i s => (transK0Ext m (l0 + i.1) (l0 + s.1)).1 *
          Real.exp (transK0Ext m (l0 + i.1) (l0 + s.1)).2)).det =
        (1 - (σa * σb) • (corner H n p * (corner H n p)ᵀ)).det := by
  have hi : ∀ i, 1 ≤ l0 + i := fun i => by omega
  have hm : ∀ i, m ≤ l0 + i := fun i => by omega
  choose A hA0 hA1 hA using fun i => ha (l0 + i) (hi i)
  choose B hB0 hB1 hB using fun i => hb (l0 + i) (hi i)
  refine ⟨fun i s => Real.sqrt (A i * r1 ^ (2 * (l0 + i) + 1)) *
    ((transK0Ext m (l0 + i) (l0 + s)).1 * Real.exp (transK0Ext m (l0 + i) (l0 + s)).2 / L ^ (l0 + i + (l0 + s) + 1)) *
    Real.sqrt (B s * r2 ^ (2 * (l0 + s) + 1)), fun i s => ?_, fun n p => ?_⟩
  · have := hA0 i
    have := hB0 s
    refine static_entry_bound (hi i) (hi s) (hm i) (hm s) h1 h2 hL (by positivity) (by positivity)
      (mul_le_mul_of_nonneg_right (hA1 i) (by positivity)) (mul_le_mul_of_nonneg_right (hB1 s) (by positivity)) ?_
    rw [abs_mul, abs_of_pos (Real.exp_pos _)]
    have : |(transK0Ext m (l0 + i) (l0 + s)).1| = 1 := by
      unfold transK0Ext
      simp
    rw [this, one_mul]
  · refine static_det l0 (A := fun i => A i.1 * r1 ^ (2 * (l0 + i.1) + 1)) (B := fun s => B s.1 * r2 ^ (2 * (l0 + s.1) + 1)) _
      (fun i => ?_) (fun s => ?_) (fun i => ?_) (fun s => ?_) fun i s => ?_
    · have := hA0 i.1; positivity
    · have := hB0 s.1; positivity
    · rw [hA]; ring
    · rw [hB]; ring
    · rfl

/-- Both polarisations at once: for every `m` the determinants of all cut-offs come from one array. -/
theorem StaticPair.array {frac : ℝ → ℝ → ℝ} {mA mB md : Material} {r1 r2 L : ℝ} {a0 b0 : MieCoef}
    (S : StaticPair frac mA mB md r1 r2 L a0 b0) (m : ℕ) {σa σb τa τb : ℝ} (ea : ElectricSign mA md σa)
    (eb : ElectricSign mB md σb) (ga : MagneticSign mA md τa) (gb : MagneticSign mB md τb) :
    ∃ H G : ℕ → ℕ → ℝ, (∀ i s, |H i s| ≤ binomArr (r1 / L) (r2 / L) (transLmin m + i) (transLmin m + s)) ∧
      (∀ i s, |G i s| ≤ binomArr (r1 / L) (r2 / L) (transLmin m + i) (transLmin m + s)) ∧
      ∀ {lmax lssmax TE TM}, blockmatricesK0At lmax lssmax m r1 r2 L a0 b0 = .ok (TE, TM) →
        (1 - TM).det = (1 - (σa * σb) • (corner H (lmax + 1 - transLmin m) (lssmax + 1 - transLmin m) *
          (corner H (lmax + 1 - transLmin m) (lssmax + 1 - transLmin m))ᵀ)).det ∧
        (1 - TE).det = (1 - (τa * τb) • (corner G (lmax + 1 - transLmin m) (lssmax + 1 - transLmin m) *
          (corner G (lmax + 1 - transLmin m) (lssmax + 1 - transLmin m))ᵀ)).det := by
  have hL : 0 < L := by have := S.h1; have := S.h2; have := S.sep; linarith
  have hlm : 1 ≤ transLmin (m : ℤ) ∧ m ≤ transLmin (m : ℤ) := by unfold transLmin; omega
  obtain ⟨H, hH, eH⟩ := static_core S.h1 S.h2 hL hlm.1 hlm.2 (σa := -σa) (σb := -σb) (a := fun l => a0.TM l * Real.exp (a0.ln l))
    (b := fun l => b0.TM l * Real.exp (b0.ln l)) (fun l hl => (mieK0_static S.hA S.hd S.hp hl (S.ha l hl)).1 _ ea)
    (fun l hl => (mieK0_static S.hB S.hd S.hp hl (S.hb l hl)).1 _ eb)
  obtain ⟨G, hG, eG⟩ := static_core S.h1 S.h2 hL hlm.1 hlm.2 (σa := -τa) (σb := -τb) (a := fun l => a0.TE l * Real.exp (a0.ln l))
    (b := fun l => b0.TE l * Real.exp (b0.ln l)) (fun l hl => (mieK0_static S.hA S.hd S.hp hl (S.ha l hl)).2 _ ga)
    (fun l hl => (mieK0_static S.hB S.hd S.hp hl (S.hb l hl)).2 _ gb)
  rw [neg_mul_neg] at eH eG
  refine ⟨H, G, hH, hG, fun {lmax lssmax TE TM} h0 => ?_⟩
  obtain ⟨c1, c2⟩ := C72_k0_ext_operator S.h1 S.h2 hL h0
  rw [c1.det, c2.det, ← eH, ← eG]
  exact ⟨rfl, rfl⟩

/-- `r1 r2 (L-r1)(L-r2) / (L (L-r1-r2))² · (r1/(L-r2))^l` -/
noncomputable def staticBound (r1 r2 L : ℝ) (l : ℕ) : ℝ :=
  (r1 / (L - r2)) ^ l * (r1 * r2 * (L - r1) * (L - r2) / (L * (L - r1 - r2)) ^ 2)

theorem corner_bounds {r1 r2 L : ℝ} (h1 : 0 < r1) (h2 : 0 < r2) (hs : r1 + r2 < L) {H : ℕ → ℕ → ℝ} {l0 : ℕ}
    (hH : ∀ i s, |H i s| ≤ binomArr (r1 / L) (r2 / L) (l0 + i) (l0 + s)) {σ : ℝ} (hσ : σ = 1 ∨ σ = -1) (n p : ℕ) :
    Real.exp (-staticBound r1 r2 L l0) ≤ (1 - σ • (corner H n p * (corner H n p)ᵀ)).det ∧
    (1 - σ • (corner H n p * (corner H n p)ᵀ)).det ≤ Real.exp (staticBound r1 r2 L l0) ∧
    (σ = 1 → (1 - σ • (corner H n p * (corner H n p)ᵀ)).det ≤ 1) ∧
    (σ = -1 → 1 ≤ (1 - σ • (corner H n p * (corner H n p)ᵀ)).det) := by
  have hL : 0 < L := by linarith
  have hx : 0 < r1 / L := by positivity
  have hy : 0 < r2 / L := by positivity
  have hxy : r1 / L + r2 / L < 1 := by rw [← add_div, div_lt_one hL]; exact hs
  have hc := contr_of_binom hx hy hxy hH
  have ht := binom_square_sum hx hy hxy hH n p
  obtain ⟨t0, t1, t2⟩ := thetaXY_lt hx hy hxy
  have d1 : 0 < L - r1 := by linarith
  have d2 : 0 < L - r2 := by linarith
  have d3 : 0 < L - r1 - r2 := by linarith
  have eb : staticBound r1 r2 L l0 = (r1 / L / (1 - r2 / L)) ^ l0 * (r1 / L * (r2 / L) / (1 - r1 / L - r2 / L)) /
      (1 - thetaXY (r1 / L) (r2 / L)) := by
    rw [t2]
    unfold staticBound
    rw [show r1 / L / (1 - r2 / L) = r1 / (L - r2) by field_simp, mul_div_assoc ((r1 / (L - r2)) ^ l0)]
    congr 1
    rw [show 1 - r1 / L - r2 / L = (L - r1 - r2) / L by field_simp, show 1 - r1 / L = (L - r1) / L by field_simp,
      show 1 - r2 / L = (L - r2) / L by field_simp]
    field_simp
  set Q := ∑ i, ∑ s, corner H n p i s ^ 2 with hQ
  have hQ0 : 0 ≤ Q := Finset.sum_nonneg fun i _ => Finset.sum_nonneg fun s _ => sq_nonneg _
  have hQb : Q / (1 - thetaXY (r1 / L) (r2 / L)) ≤ staticBound r1 r2 L l0 := by
    rw [eb]; exact div_le_div_of_nonneg_right ht (by linarith)
  have hQb' : Q ≤ staticBound r1 r2 L l0 := by
    refine le_trans ?_ hQb
    rw [le_div_iff₀ (by linarith)]
    nlinarith
  have hb0 := hQ0.trans hQb'
  rcases hσ with h | h
  · subst h
    obtain ⟨q1, q2⟩ := det_one_sub_bounds t1 (hc n p)
    rw [one_smul]
    refine ⟨le_trans (Real.exp_le_exp.mpr ?_) q1, q2.trans (Real.one_le_exp hb0), fun _ => q2, fun h => by norm_num at h⟩
    rw [neg_div]; exact neg_le_neg hQb
  · subst h
    obtain ⟨q1, q2⟩ := det_one_add_bounds (corner H n p)
    rw [neg_smul, one_smul, sub_neg_eq_add]
    exact ⟨le_trans (Real.exp_le_one_iff.mpr (by linarith)) q1, q2.trans (Real.exp_le_exp.mpr hQb'), fun h => by norm_num at h,
      fun _ => q1⟩

section
variable {frac : ℝ → ℝ → ℝ} {mA mB md : Material} {r1 r2 L : ℝ} {a0 b0 : MieCoef} {lmax lssmax m : ℕ}
  {TE TM : Matrix (Fin (lmax + 1 - transLmin m)) (Fin (lmax + 1 - transLmin m)) ℝ}

/-- **C92.** Two separate spheres (perfect conductors, dielectrics or conductors, possibly magnetic) in a dielectric medium:
for every `m` and every cut-off both zero-frequency determinants `det(1 - M_TE)`, `det(1 - M_TM)` are positive, and their
logarithms are bounded by `staticBound r1 r2 L (max 1 m)`, independently of the materials and of the cut-offs. -/
theorem C92_positive (S : StaticPair frac mA mB md r1 r2 L a0 b0)
    (h0 : blockmatricesK0At lmax lssmax m r1 r2 L a0 b0 = .ok (TE, TM)) :
    (0 < (1 - TE).det ∧ |Real.log (1 - TE).det| ≤ staticBound r1 r2 L (max 1 m)) ∧
    (0 < (1 - TM).det ∧ |Real.log (1 - TM).det| ≤ staticBound r1 r2 L (max 1 m)) := by
  have hlm : transLmin (m : ℤ) = max 1 m := by unfold transLmin; omega
  obtain ⟨⟨σa, ea⟩, ⟨τa, ga⟩⟩ := sign_total S.hA S.hd S.hp
  obtain ⟨⟨σb, eb⟩, ⟨τb, gb⟩⟩ := sign_total S.hB S.hd S.hp
  obtain ⟨H, G, hH, hG, hdet⟩ := S.array m ea eb ga gb
  have prod : ∀ {a b : ℝ}, (a = 1 ∨ a = -1) → (b = 1 ∨ b = -1) → a * b = 1 ∨ a * b = -1 := by
    rintro a b (rfl | rfl) (rfl | rfl) <;> norm_num
  obtain ⟨e1, e2⟩ := hdet h0
  have fin : ∀ {D : ℝ}, Real.exp (-staticBound r1 r2 L (transLmin m)) ≤ D → D ≤ Real.exp (staticBound r1 r2 L (transLmin m)) →
      0 < D ∧ |Real.log D| ≤ staticBound r1 r2 L (max 1 m) := by
    intro D q1 q2
    have hD := (Real.exp_pos _).trans_le q1
    rw [← hlm]
    exact ⟨hD, abs_le.mpr ⟨(Real.le_log_iff_exp_le hD).mpr q1, (Real.log_le_iff_le_exp hD).mpr q2⟩⟩
  rw [e1, e2]
  obtain ⟨p1, p2, -, -⟩ := corner_bounds S.h1 S.h2 S.sep hG (prod ga.sign gb.sign) (lmax + 1 - transLmin m) (lssmax + 1 - transLmin m)
  obtain ⟨q1, q2, -, -⟩ := corner_bounds S.h1 S.h2 S.sep hH (prod ea.sign eb.sign) (lmax + 1 - transLmin m) (lssmax + 1 - transLmin m)
  exact ⟨fin p1 p2, fin q1 q2⟩

/-- **C92, sign (TM).** If both spheres differ from the medium in the same direction (`σ` equal), the electric
zero-frequency contribution is attractive: `ln det(1 - M_TM) ≤ 0`; if in opposite directions it is repulsive. -/
theorem C92_electric (S : StaticPair frac mA mB md r1 r2 L a0 b0) {σa σb : ℝ} (ea : ElectricSign mA md σa)
    (eb : ElectricSign mB md σb) (h0 : blockmatricesK0At lmax lssmax m r1 r2 L a0 b0 = .ok (TE, TM)) :
    (σa = σb → Real.log (1 - TM).det ≤ 0) ∧ (σa ≠ σb → 0 ≤ Real.log (1 - TM).det) := by
  obtain ⟨-, ⟨τa, ga⟩⟩ := sign_total S.hA S.hd S.hp
  obtain ⟨-, ⟨τb, gb⟩⟩ := sign_total S.hB S.hd S.hp
  obtain ⟨H, G, hH, hG, hdet⟩ := S.array m ea eb ga gb
  have hpos := (C92_positive S h0).2.1
  rw [(hdet h0).1] at hpos ⊢
  constructor
  · intro h
    have hσ : σa * σb = 1 := by rw [h]; rcases eb.sign with h | h <;> rw [h] <;> norm_num
    exact Real.log_nonpos hpos.le ((corner_bounds S.h1 S.h2 S.sep hH (.inl hσ) _ _).2.2.1 hσ)
  · intro h
    have hσ : σa * σb = -1 := by
      rcases ea.sign with h1 | h1 <;> rcases eb.sign with h2 | h2 <;> rw [h1, h2] at h ⊢ <;> first | exact absurd rfl h | norm_num
    exact Real.log_nonneg ((corner_bounds S.h1 S.h2 S.sep hH (.inr hσ) _ _).2.2.2 hσ)

/-- **C92, sign (TE).** The same for the magnetic contribution. -/
theorem C92_magnetic (S : StaticPair frac mA mB md r1 r2 L a0 b0) {τa τb : ℝ} (ga : MagneticSign mA md τa)
    (gb : MagneticSign mB md τb) (h0 : blockmatricesK0At lmax lssmax m r1 r2 L a0 b0 = .ok (TE, TM)) :
    (τa = τb → Real.log (1 - TE).det ≤ 0) ∧ (τa ≠ τb → 0 ≤ Real.log (1 - TE).det) := by
  obtain ⟨⟨σa, ea⟩, -⟩ := sign_total S.hA S.hd S.hp
  obtain ⟨⟨σb, eb⟩, -⟩ := sign_total S.hB S.hd S.hp
  obtain ⟨H, G, hH, hG, hdet⟩ := S.array m ea eb ga gb
  have hpos := (C92_positive S h0).1.1
  rw [(hdet h0).2] at hpos ⊢
  constructor
  · intro h
    have hσ : τa * τb = 1 := by rw [h]; rcases gb.sign with h | h <;> rw [h] <;> norm_num
    exact Real.log_nonpos hpos.le ((corner_bounds S.h1 S.h2 S.sep hG (.inl hσ) _ _).2.2.1 hσ)
  · intro h
    have hσ : τa * τb = -1 := by
      rcases ga.sign with h1 | h1 <;> rcases gb.sign with h2 | h2 <;> rw [h1, h2] at h ⊢ <;> first | exact absurd rfl h | norm_num
    exact Real.log_nonneg ((corner_bounds S.h1 S.h2 S.sep hG (.inr hσ) _ _).2.2.2 hσ)

/-- **C92, equal materials.** Two spheres of the same material (radii arbitrary) always attract at zero frequency. -/
theorem C92_same_material (S : StaticPair frac mA mA md r1 r2 L a0 b0)
    (h0 : blockmatricesK0At lmax lssmax m r1 r2 L a0 b0 = .ok (TE, TM)) :
    Real.log (1 - TE).det ≤ 0 ∧ Real.log (1 - TM).det ≤ 0 := by
  obtain ⟨⟨σ, e⟩, ⟨τ, g⟩⟩ := sign_total S.hA S.hd S.hp
  exact ⟨(C92_magnetic S g g h0).1 rfl, (C92_electric S e e h0).1 rfl⟩

/-- C91 without assumptions on the determinants: the logarithms converge to the zero-frequency ones. -/
theorem C92_logarithm_limit {T : BesTable} (hT : ∀ l, 1 ≤ l → ∀ x, 0 < x → BesOK T l x) (hlow : ∀ l, 1 ≤ l → LowFreq T l)
    (S : StaticPair frac mA mB md r1 r2 L a0 b0) (hmu : md.mu 0 = .ok 1) {a b : ℝ → MieCoef} {bes : ℝ → List ℝ}
    {B : ℝ → Blocks (lmax + 1 - transLmin m)} (hk : FiniteK T mA mB md r1 r2 L lmax lssmax m a b bes B)
    (h0 : blockmatricesK0At lmax lssmax m r1 r2 L a0 b0 = .ok (TE, TM)) :
    Tendsto (fun k => Real.log |(1 - fromBlocks (B k).EE (B k).EM (B k).ME (B k).MM).det|) (𝓝[>] 0)
      (𝓝 (Real.log |(1 - TE).det| + Real.log |(1 - TM).det|)) := by
  have hL : 0 < L := by have := S.h1; have := S.h2; have := S.sep; linarith
  obtain ⟨h1, h2⟩ := C92_positive S h0
  exact C91_logarithm hT hlow S.hA S.hB S.hd S.hp hmu S.h1 S.h2 hL hk S.ha S.hb h0 h1.1.ne' h2.1.ne'

/-- **C93, monotonicity.** Raising either cut-off can only make an attractive contribution more attractive, a repulsive one
more repulsive. -/
theorem C93_monotone (S : StaticPair frac mA mB md r1 r2 L a0 b0) {σa σb τa τb : ℝ} (ea : ElectricSign mA md σa)
    (eb : ElectricSign mB md σb) (ga : MagneticSign mA md τa) (gb : MagneticSign mB md τb)
    (h0 : blockmatricesK0At lmax lssmax m r1 r2 L a0 b0 = .ok (TE, TM)) {lmax' lssmax' : ℕ}
    {TE' TM' : Matrix (Fin (lmax' + 1 - transLmin m)) (Fin (lmax' + 1 - transLmin m)) ℝ}
    (h0' : blockmatricesK0At lmax' lssmax' m r1 r2 L a0 b0 = .ok (TE', TM')) (hl : lmax ≤ lmax') (hl' : lssmax ≤ lssmax') :
    (σa = σb → Real.log (1 - TM').det ≤ Real.log (1 - TM).det) ∧
    (σa ≠ σb → Real.log (1 - TM).det ≤ Real.log (1 - TM').det) ∧
    (τa = τb → Real.log (1 - TE').det ≤ Real.log (1 - TE).det) ∧
    (τa ≠ τb → Real.log (1 - TE).det ≤ Real.log (1 - TE').det) := by
  obtain ⟨H, G, hH, hG, hdet⟩ := S.array m ea eb ga gb
  have hp := C92_positive S h0
  have hp' := C92_positive S h0'
  have hL : 0 < L := by have := S.h1; have := S.h2; have := S.sep; linarith
  have hx : 0 < r1 / L := div_pos S.h1 hL
  have hy : 0 < r2 / L := div_pos S.h2 hL
  have hxy : r1 / L + r2 / L < 1 := by rw [← add_div, div_lt_one hL]; exact S.sep
  obtain ⟨t0, t1, -⟩ := thetaXY_lt hx hy hxy
  have n1 : lmax + 1 - transLmin (m : ℤ) ≤ lmax' + 1 - transLmin (m : ℤ) := by omega
  have n2 : lssmax + 1 - transLmin (m : ℤ) ≤ lssmax' + 1 - transLmin (m : ℤ) := by omega
  have one : ∀ {a b : ℝ}, (b = 1 ∨ b = -1) → a = b → a * b = 1 := by rintro a b (rfl | rfl) rfl <;> norm_num
  have neg : ∀ {a b : ℝ}, (a = 1 ∨ a = -1) → (b = 1 ∨ b = -1) → a ≠ b → a * b = -1 := by
    rintro a b (rfl | rfl) (rfl | rfl) h <;> first | exact absurd rfl h | norm_num
  refine ⟨fun h => Real.log_le_log hp'.2.1 ?_, fun h => Real.log_le_log hp.2.1 ?_, fun h => Real.log_le_log hp'.1.1 ?_,
    fun h => Real.log_le_log hp.1.1 ?_⟩
  · rw [(hdet h0).1, (hdet h0').1, one eb.sign h, one_smul, one_smul]
    exact det_corner_antitone t0 t1 (contr_of_binom hx hy hxy hH) n1 n2
  · rw [(hdet h0).1, (hdet h0').1, neg ea.sign eb.sign h]
    simp only [neg_smul, one_smul, sub_neg_eq_add]
    exact det_corner_monotone H n1 n2
  · rw [(hdet h0).2, (hdet h0').2, one gb.sign h, one_smul, one_smul]
    exact det_corner_antitone t0 t1 (contr_of_binom hx hy hxy hG) n1 n2
  · rw [(hdet h0).2, (hdet h0').2, neg ga.sign gb.sign h]
    simp only [neg_smul, one_smul, sub_neg_eq_add]
    exact det_corner_monotone G n1 n2

end

theorem corner_limit {r1 r2 L : ℝ} (h1 : 0 < r1) (h2 : 0 < r2) (hs : r1 + r2 < L) {H : ℕ → ℕ → ℝ} {l0 : ℕ}
    (hH : ∀ i s, |H i s| ≤ binomArr (r1 / L) (r2 / L) (l0 + i) (l0 + s)) {σ : ℝ} (hσ : σ = 1 ∨ σ = -1) :
    ∃ D, 0 < D ∧ Tendsto (fun c : ℕ × ℕ => (1 - σ • (corner H c.1 c.2 * (corner H c.1 c.2)ᵀ)).det) atTop (𝓝 D) := by
  have hL : 0 < L := by linarith
  have hx : 0 < r1 / L := by positivity
  have hy : 0 < r2 / L := by positivity
  have hxy : r1 / L + r2 / L < 1 := by rw [← add_div, div_lt_one hL]; exact hs
  obtain ⟨t0, t1, -⟩ := thetaXY_lt hx hy hxy
  have hb := fun c : ℕ × ℕ => corner_bounds h1 h2 hs hH hσ c.1 c.2
  have key : ∃ D, Tendsto (fun c : ℕ × ℕ => (1 - σ • (corner H c.1 c.2 * (corner H c.1 c.2)ᵀ)).det) atTop (𝓝 D) := by
    rcases hσ with h | h
    · refine ⟨_, tendsto_atTop_ciInf ?_ ⟨Real.exp (-staticBound r1 r2 L l0), ?_⟩⟩
      · intro c c' hcc
        subst h
        simp only [one_smul]
        exact det_corner_antitone t0 t1 (contr_of_binom hx hy hxy hH) hcc.1 hcc.2
      · rintro _ ⟨c, rfl⟩
        exact (hb c).1
    · refine ⟨_, tendsto_atTop_ciSup ?_ ⟨Real.exp (staticBound r1 r2 L l0), ?_⟩⟩
      · intro c c' hcc
        subst h
        simp only [neg_smul, one_smul, sub_neg_eq_add]
        exact det_corner_monotone H hcc.1 hcc.2
      · rintro _ ⟨c, rfl⟩
        exact (hb c).2.1
  obtain ⟨D, hD⟩ := key
  exact ⟨D, (Real.exp_pos _).trans_le (ge_of_tendsto' hD fun c => (hb c).1), hD⟩

/-- The zero-frequency contribution of one `m`: `ln det(1 - M_TE) + ln det(1 - M_TM)`. -/
noncomputable def staticLn {n : ℕ} (TE TM : Matrix (Fin n) (Fin n) ℝ) : ℝ :=
  Real.log |(1 - TE).det| + Real.log |(1 - TM).det|

/-- **C93, convergence.** For every `m` the zero-frequency contribution converges when both cut-offs tend to infinity. -/
theorem C93_converges {frac : ℝ → ℝ → ℝ} {mA mB md : Material} {r1 r2 L : ℝ} {a0 b0 : MieCoef} {m : ℕ}
    (S : StaticPair frac mA mB md r1 r2 L a0 b0)
    {TE TM : ∀ lmax _lssmax : ℕ, Matrix (Fin (lmax + 1 - transLmin m)) (Fin (lmax + 1 - transLmin m)) ℝ}
    (h0 : ∀ lmax lssmax, max 1 m ≤ lmax → max 1 m ≤ lssmax →
      blockmatricesK0At lmax lssmax m r1 r2 L a0 b0 = .ok (TE lmax lssmax, TM lmax lssmax)) :
    ∃ v, |v| ≤ 2 * staticBound r1 r2 L (max 1 m) ∧
      Tendsto (fun c : ℕ × ℕ => staticLn (TE c.1 c.2) (TM c.1 c.2)) atTop (𝓝 v) := by
  obtain ⟨⟨σa, ea⟩, ⟨τa, ga⟩⟩ := sign_total S.hA S.hd S.hp
  obtain ⟨⟨σb, eb⟩, ⟨τb, gb⟩⟩ := sign_total S.hB S.hd S.hp
  obtain ⟨H, G, hH, hG, hdet⟩ := S.array m ea eb ga gb
  have prod : ∀ {a b : ℝ}, (a = 1 ∨ a = -1) → (b = 1 ∨ b = -1) → a * b = 1 ∨ a * b = -1 := by
    rintro a b (rfl | rfl) (rfl | rfl) <;> norm_num
  obtain ⟨D1, p1, l1⟩ := corner_limit S.h1 S.h2 S.sep hH (prod ea.sign eb.sign)
  obtain ⟨D2, p2, l2⟩ := corner_limit S.h1 S.h2 S.sep hG (prod ga.sign gb.sign)
  have hidx : Tendsto (fun c : ℕ × ℕ => (c.1 + 1 - transLmin (m : ℤ), c.2 + 1 - transLmin (m : ℤ))) atTop atTop := by
    rw [← prod_atTop_atTop_eq]
    have : Tendsto (fun c : ℕ => c + 1 - transLmin (m : ℤ)) atTop atTop :=
      (tendsto_sub_atTop_nat _).comp (tendsto_add_atTop_nat 1)
    exact this.prodMap this
  have lim : Tendsto (fun c : ℕ × ℕ => staticLn (TE c.1 c.2) (TM c.1 c.2)) atTop (𝓝 (Real.log |D2| + Real.log |D1|)) := by
    have t1 := ((Real.continuousAt_log (abs_ne_zero.mpr p1.ne')).tendsto.comp ((l1.comp hidx).abs))
    have t2 := ((Real.continuousAt_log (abs_ne_zero.mpr p2.ne')).tendsto.comp ((l2.comp hidx).abs))
    refine (t2.add t1).congr' ?_
    filter_upwards [eventually_ge_atTop ((max 1 m, max 1 m) : ℕ × ℕ)] with c hc
    obtain ⟨q1, q2⟩ := hdet (h0 c.1 c.2 hc.1 hc.2)
    unfold staticLn
    rw [q1, q2]
    rfl
  refine ⟨_, ?_, lim⟩
  refine le_of_tendsto lim.abs ?_
  filter_upwards [eventually_ge_atTop ((max 1 m, max 1 m) : ℕ × ℕ)] with c hc
  obtain ⟨⟨q1, q2⟩, ⟨q3, q4⟩⟩ := C92_positive S (h0 c.1 c.2 hc.1 hc.2)
  unfold staticLn
  rw [abs_of_pos q1, abs_of_pos q3]
  exact (abs_add_le _ _).trans (by linarith)

end CasSph
