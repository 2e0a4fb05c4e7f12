import Verif.Model.FiniteSum
import Verif.Lemmas.FiniteGram
import Verif.Lemmas.GramSign
import Verif.Props.TransIntegral
import Verif.Props.ZeroFreqLimit
import Verif.Props.StaticSum

/-! # C96, C97: sign, size and convergence of the contribution of one `m` at a non-zero wavenumber -/

namespace CasSph

open Spec Filter Topology Matrix

/-- Two separate spheres at one non-zero wavenumber `k` in a medium with `ε = med.eps`, `μ = med.mu`, and their Mie
coefficients (with exact Bessel functions).  The translation coefficients are evaluated at `k L √ε`, the Mie coefficients
at `k r √(ε μ)` (this is what the code does), so that in a magnetic medium the spheres have to be separate on the scale `r √μ`. -/
structure FinitePair (mA mB md : Material) (r1 r2 L k : ℝ) (med : Medium) (a b : MieCoef) : Prop where
  hmd : md.cls ≠ .pec
  hp : md.Physical
  hk : 0 < k
  h1 : 0 < r1
  h2 : 0 < r2
  hmed : md.medium k = .ok med
  sep : (r1 + r2) * Real.sqrt med.mu < L
  ha : ∀ l, 1 ≤ l → mie exactBes exactBes mA md l k r1 = .ok ⟨a.TE l, a.TM l, a.ln l⟩
  hb : ∀ l, 1 ≤ l → mie exactBes exactBes mB md l k r2 = .ok ⟨b.TE l, b.TM l, b.ln l⟩

/-- The part of `FinitePair` that does not concern the spheres' materials. -/
structure GapPair (md : Material) (r1 r2 L k : ℝ) (med : Medium) : Prop where
  hmd : md.cls ≠ .pec
  hp : md.Physical
  hk : 0 < k
  h1 : 0 < r1
  h2 : 0 < r2
  hmed : md.medium k = .ok med
  sep : (r1 + r2) * Real.sqrt med.mu < L

theorem FinitePair.gap {mA mB md : Material} {r1 r2 L k : ℝ} {med : Medium} {a b : MieCoef}
    (S : FinitePair mA mB md r1 r2 L k med a b) : GapPair md r1 r2 L k med :=
  ⟨S.hmd, S.hp, S.hk, S.h1, S.h2, S.hmed, S.sep⟩

/-- Mie coefficients `α(-1)^l A` (TE), `-α(-1)^l A` (TM) with `A` not larger than for a perfect conductor and factors `α`
which depend on polarisation and degree. -/
def Scatters (c : MieCoef) (α : Bool → ℕ → ℝ) (ρ : ℝ) (A : Bool → ℕ → ℝ) : Prop :=
  ∀ i, (∀ P, 0 ≤ A P i ∧ A P i ≤ pecR P i ρ) ∧
    c.TE (i + 1) * Real.exp (c.ln (i + 1)) = α false i * (-1) ^ (i + 1) * A false i ∧
    c.TM (i + 1) * Real.exp (c.ln (i + 1)) = -(α true i * (-1) ^ (i + 1) * A true i)

/-- The blocks of the round-trip matrix assembled by `blockmatrices` at the wavenumber `k`. -/
def BlocksAt (md : Material) (L k : ℝ) (lmax lssmax : ℕ) (m : ℤ) (a b : MieCoef) (B : Blocks (lmax + 1 - transLmin m)) : Prop :=
  ∃ e bes, md.epsilon k = .ok e ∧ transBessels [k * L * Real.sqrt e] (.int (lmax + lssmax + 1 : ℕ)) 1 = .ok [bes] ∧
    blockmatricesAt lmax lssmax m true (k * L * Real.sqrt e) bes a b = .ok B

/-- The round-trip matrix of one `m`. -/
def Blocks.full {n : ℕ} (B : Blocks n) : Matrix (Fin n ⊕ Fin n) (Fin n ⊕ Fin n) ℝ := fromBlocks B.EE B.EM B.ME B.MM

/-- Optical length of the gap between the spheres in units of the decay length: `k √ε (L - (r1 + r2) √μ)`. -/
noncomputable def optGap (med : Medium) (r1 r2 L k : ℝ) : ℝ :=
  k * Real.sqrt med.eps * (L - (r1 + r2) * Real.sqrt med.mu)

/-- `r/(r + d/2)` for a sphere of radius `r` and a gap `d`. -/
noncomputable def gapRatio (r d : ℝ) : ℝ := r / (r + d / 2)

/-- `4 exp(-δ) (q1 q2)^(m-1) / ((1 - q1)(1 - q2))` with the optical gap `δ` and `q_i = r_i/(r_i + d/2)`, where `d` is the gap;
only `δ` depends on the wavenumber. -/
noncomputable def pairTrace (med : Medium) (r1 r2 L k : ℝ) (m : ℕ) : ℝ :=
  Real.exp (-optGap med r1 r2 L k) *
    (2 * gapRatio (r1 * Real.sqrt med.mu) (L - (r1 + r2) * Real.sqrt med.mu) ^ (m - 1) /
        (1 - gapRatio (r1 * Real.sqrt med.mu) (L - (r1 + r2) * Real.sqrt med.mu)) *
      (2 * gapRatio (r2 * Real.sqrt med.mu) (L - (r1 + r2) * Real.sqrt med.mu) ^ (m - 1) /
        (1 - gapRatio (r2 * Real.sqrt med.mu) (L - (r1 + r2) * Real.sqrt med.mu))))

/-- Bound of the contribution of one `m`. -/
noncomputable def pairBound (med : Medium) (r1 r2 L k : ℝ) (m : ℕ) : ℝ :=
  pairTrace med r1 r2 L k m / (1 - Real.exp (-(2 * optGap med r1 r2 L k)))

section
variable {mA mB md : Material} {r1 r2 L k : ℝ} {med : Medium} {a b : MieCoef}

theorem GapPair.med_pos (S : GapPair md r1 r2 L k med) : med.Pos := by
  obtain ⟨a', ha', hap⟩ := medium_pos S.hmd S.hp S.hk
  rw [S.hmed] at ha'
  injection ha' with e; rw [e]; exact hap

theorem FinitePair.med_pos (S : FinitePair mA mB md r1 r2 L k med a b) : med.Pos := S.gap.med_pos

theorem GapPair.gap_pos (S : GapPair md r1 r2 L k med) : 0 < optGap med r1 r2 L k := by
  have h := S.med_pos
  exact mul_pos (mul_pos S.hk (Real.sqrt_pos.mpr h.1)) (by linarith [S.sep])

theorem FinitePair.gap_pos (S : FinitePair mA mB md r1 r2 L k med a b) : 0 < optGap med r1 r2 L k := S.gap.gap_pos

/-- The array behind all cut-offs, for given scattering amplitudes. -/
theorem GapPair.array_mix (S : GapPair md r1 r2 L k med) (m : ℕ) {α β A B0 : Bool → ℕ → ℝ}
    (hA : Scatters a α (k * r1 * med.n) A) (hB : Scatters b β (k * r2 * med.n) B0) :
    (a.TE (transLmin m) ≠ 0 → b.TE (transLmin m) ≠ 0 → 0 < kern m (k * L * Real.sqrt med.eps) (m - 1) A B0 0 0) ∧
      HSContr (kern m (k * L * Real.sqrt med.eps) (m - 1) A B0) (Real.exp (-(2 * optGap med r1 r2 L k))) (pairTrace med r1 r2 L k m) ∧
      ∀ {lmax lssmax B}, BlocksAt md L k lmax lssmax m a b B →
        Fac B.full ((mixed (pick α (m - 1)) (pick β (m - 1)) (kern m (k * L * Real.sqrt med.eps) (m - 1) A B0) (2 * (lmax + 1 - transLmin m))
          (2 * (lssmax + 1 - transLmin m))).submatrix (ilv _) (ilv _)) := by
  have hpos := S.med_pos
  have hse := Real.sqrt_pos.mpr hpos.1
  have hsm := Real.sqrt_pos.mpr hpos.2
  have hks : 0 < k * Real.sqrt med.eps := mul_pos S.hk hse
  have hn : med.n = Real.sqrt med.eps * Real.sqrt med.mu := by
    unfold Medium.n; exact Real.sqrt_mul hpos.1.le _
  set x := k * L * Real.sqrt med.eps with hx
  have hL : 0 < L := by have := S.sep; have := S.h1; have := S.h2; nlinarith [mul_pos (add_pos S.h1 S.h2) hsm]
  have hx0 : 0 < x := mul_pos (mul_pos S.hk hL) hse
  have hρ1 : k * r1 * med.n = k * Real.sqrt med.eps * (r1 * Real.sqrt med.mu) := by rw [hn]; ring
  have hρ2 : k * r2 * med.n = k * Real.sqrt med.eps * (r2 * Real.sqrt med.mu) := by rw [hn]; ring
  rw [hρ1] at hA
  rw [hρ2] at hB
  have hr1 : 0 < r1 * Real.sqrt med.mu := mul_pos S.h1 hsm
  have hr2 : 0 < r2 * Real.sqrt med.mu := mul_pos S.h2 hsm
  have hp1 : 0 < k * Real.sqrt med.eps * (r1 * Real.sqrt med.mu) := mul_pos hks hr1
  have hp2 : 0 < k * Real.sqrt med.eps * (r2 * Real.sqrt med.mu) := mul_pos hks hr2
  have hgap : x - k * Real.sqrt med.eps * (r1 * Real.sqrt med.mu) - k * Real.sqrt med.eps * (r2 * Real.sqrt med.mu) =
      optGap med r1 r2 L k := by rw [hx]; unfold optGap; ring
  have hlt : k * Real.sqrt med.eps * (r1 * Real.sqrt med.mu) + k * Real.sqrt med.eps * (r2 * Real.sqrt med.mu) < x := by
    have := S.gap_pos; linarith
  have hlm : transLmin (m : ℤ) = m - 1 + 1 := by unfold transLmin; omega
  have hmc : m ≤ (m - 1) + 1 := by omega
  refine ⟨fun hta htb => ?_, ⟨(Real.exp_pos _).le, ?_, ?_, fun n p => ?_⟩, ?_⟩
  · rw [hlm] at hta htb
    have pa : 0 < A false (m - 1) := lt_of_le_of_ne ((hA (m - 1)).1 false).1 fun h => by
      have := (hA (m - 1)).2.1
      rw [← h, mul_zero] at this
      exact hta ((mul_eq_zero.mp this).resolve_right (Real.exp_pos _).ne')
    have pb : 0 < B0 false (m - 1) := lt_of_le_of_ne ((hB (m - 1)).1 false).1 fun h => by
      have := (hB (m - 1)).2.1
      rw [← h, mul_zero] at this
      exact htb ((mul_eq_zero.mp this).resolve_right (Real.exp_pos _).ne')
    unfold kern fab
    simp only [Nat.bodd_zero, Nat.div2_zero, add_zero, if_true]
    refine mul_pos (mul_pos (Real.sqrt_pos.mpr pa) (mul_pos (mul_pos (nV_pos (by omega) m) (nV_pos (by omega) m)) (lap_pos hx0 fun t ht => ?_)))
      (Real.sqrt_pos.mpr pb)
    exact eePol_pos (by omega) (by omega) (by omega) (by omega) ht
  · rw [Real.exp_lt_one_iff]; have := S.gap_pos; linarith
  · refine (kern_contr hp1 hp2 hlt.le hmc (fun P c => ((hA c).1 P).2) (fun P c => ((hB c).1 P).2)).mono ?_
    rw [hgap]
    exact mul_le_of_le_one_right (Real.exp_pos _).le (gamC_le hp1 hp2 hlt.le)
  · refine (kern_hs hp1 hp2 hlt hmc (fun P c => ((hA c).1 P).2) (fun P c => ((hB c).1 P).2) n p).trans (le_of_eq ?_)
    rw [hgap]
    have hq : ∀ r, 0 < r → k * Real.sqrt med.eps * r / (k * Real.sqrt med.eps * r + optGap med r1 r2 L k / 2) =
        gapRatio r (L - (r1 + r2) * Real.sqrt med.mu) := by
      intro r hr
      unfold gapRatio optGap
      rw [show k * Real.sqrt med.eps * r + k * Real.sqrt med.eps * (L - (r1 + r2) * Real.sqrt med.mu) / 2 =
        k * Real.sqrt med.eps * (r + (L - (r1 + r2) * Real.sqrt med.mu) / 2) by ring, mul_div_mul_left _ _ hks.ne']
    rw [hq _ hr1, hq _ hr2]
    rfl
  · intro lmax lssmax B hBl
    obtain ⟨e, bes, he, hbes, hblk⟩ := hBl
    have hee : e = med.eps := by
      have h := S.hmed
      unfold Material.medium at h
      rw [he, ok_bind] at h
      cases hmu : md.mu k with
      | error er => rw [hmu] at h; cases h
      | ok u => rw [hmu, ok_bind] at h; injection h with h; rw [← h]
    subst hee
    rw [← hx] at hbes hblk
    rw [trans_row_ext] at hbes
    have hbes : bes = (List.range (lmax + lssmax + 1 + 1)).map (lnk1 x) := by
      injection hbes with hb; injection hb with hb; exact hb.symm
    have hlen : bes.length = lmax + lssmax + 2 := by simp [hbes]
    have hget : ∀ p ≤ lmax + lssmax, bes.getD p 0 = lnk1 x p := by
      intro p hp
      rw [List.getD_eq_getElem?_getD, hbes, List.getElem?_map, List.getElem?_range (by omega)]; rfl
    have hi : ∀ i : Fin (lmax + 1 - transLmin (m : ℤ)), transLmin (m : ℤ) + i.1 = m - 1 + i.1 + 1 ∧ m - 1 + i.1 + 1 ≤ lmax := by
      intro i; have := i.2; omega
    have hs : ∀ s : Fin (lssmax + 1 - transLmin (m : ℤ)), transLmin (m : ℤ) + s.1 = m - 1 + s.1 + 1 ∧ m - 1 + s.1 + 1 ≤ lssmax := by
      intro i; have := i.2; omega
    unfold blockmatricesAt roundTripElements transAb at hblk
    rw [finM_ok (g := fun (i : Fin (lmax + 1 - transLmin (m : ℤ))) (j : Fin (lssmax + 1 - transLmin (m : ℤ))) =>
      vVal true m x bes (transLmin (m : ℤ) + i.1) (transLmin (m : ℤ) + j.1)) ?_] at hblk
    · simp only [ok_bind] at hblk
      obtain ⟨dg, hdg, hBd⟩ := blockmatrices_diag hblk
      refine Fac.of_diag ?_ dg hdg hBd
      refine roundTrip_mix (m := m) (c0 := m - 1) (x := x) (fun P c => ((hA c).1 P).1) (fun P c => ((hB c).1 P).1) ?_ ?_ ?_ ?_ ?_ ?_ ?_ ?_
      · intro i
        simp only
        rw [(hi i).1, (hA (m - 1 + i.1)).2.1, show m - 1 + 1 + i.1 = m - 1 + i.1 + 1 by omega]
      · intro i
        simp only
        rw [(hi i).1, (hA (m - 1 + i.1)).2.2, show m - 1 + 1 + i.1 = m - 1 + i.1 + 1 by omega]
      · intro i
        simp only
        rw [(hs i).1, (hB (m - 1 + i.1)).2.1, show m - 1 + 1 + i.1 = m - 1 + i.1 + 1 by omega]
      · intro i
        simp only
        rw [(hs i).1, (hB (m - 1 + i.1)).2.2, show m - 1 + 1 + i.1 = m - 1 + i.1 + 1 by omega]
      · intro i s
        simp only [of_apply]
        have := (hi i).2; have := (hs s).2
        rw [(hi i).1, (hs s).1, vVal_EE_lap hx0 (by omega) (by omega) m fun p hp => hget p (by omega)]
        simp [fab]
      · intro i s
        simp only [of_apply]
        have := (hi i).2; have := (hs s).2
        rw [(hi i).1, (hs s).1, vVal_EM_lap hx0 (by omega) (by omega) m fun p hp => hget p (by omega)]
        simp [fab]
      · intro i s
        simp only [of_apply]
        rw [(hi i).1, (hs s).1, (vVal_back true m x bes _ _).1, show m - 1 + 1 + i.1 + (m - 1 + 1 + s.1) = m - 1 + i.1 + 1 + (m - 1 + s.1 + 1) by omega]
        ring
      · intro i s
        simp only [of_apply]
        rw [(hi i).1, (hs s).1, (vVal_back true m x bes _ _).2, show m - 1 + 1 + i.1 + (m - 1 + 1 + s.1) = m - 1 + i.1 + 1 + (m - 1 + s.1 + 1) by omega]
        ring
    · intro i
      refine finM_ok fun s => getVl1l2_ok true m x ?_
      have := (hi i); have := (hs s); omega

/-- The array behind all cut-offs, for given reflection amplitudes. -/
theorem FinitePair.array_of (S : FinitePair mA mB md r1 r2 L k med a b) (m : ℕ) {σa σb : ℝ} {A B0 : Bool → ℕ → ℝ}
    (hA : Reflects a σa (k * r1 * med.n) A) (hB : Reflects b σb (k * r2 * med.n) B0) :
    (a.TE (transLmin m) ≠ 0 → b.TE (transLmin m) ≠ 0 → 0 < kern m (k * L * Real.sqrt med.eps) (m - 1) A B0 0 0) ∧
      HSContr (kern m (k * L * Real.sqrt med.eps) (m - 1) A B0) (Real.exp (-(2 * optGap med r1 r2 L k))) (pairTrace med r1 r2 L k m) ∧
      ∀ {lmax lssmax B}, BlocksAt md L k lmax lssmax m a b B →
        Fac B.full ((gram (σa * σb) (kern m (k * L * Real.sqrt med.eps) (m - 1) A B0) (2 * (lmax + 1 - transLmin m))
          (2 * (lssmax + 1 - transLmin m))).submatrix (ilv _) (ilv _)) := by
  have h := S.gap.array_mix m (α := fun _ _ => σa) (β := fun _ _ => σb) hA hB
  refine ⟨h.1, h.2.1, fun hB => ?_⟩
  rw [← mixed_const]
  exact h.2.2 hB

theorem FinitePair.array (S : FinitePair mA mB md r1 r2 L k med a b) (m : ℕ) {σa σb : ℝ} (ea : DenseSign mA md k σa)
    (eb : DenseSign mB md k σb) :
    ∃ H, ((∀ i s, 0 ≤ H i s) ∧ (a.TE (transLmin m) ≠ 0 → b.TE (transLmin m) ≠ 0 → 0 < H 0 0)) ∧
      HSContr H (Real.exp (-(2 * optGap med r1 r2 L k))) (pairTrace med r1 r2 L k m) ∧
      ∀ {lmax lssmax B}, BlocksAt md L k lmax lssmax m a b B →
        Fac B.full ((gram (σa * σb) H (2 * (lmax + 1 - transLmin m)) (2 * (lssmax + 1 - transLmin m))).submatrix
          (ilv _) (ilv _)) := by
  have hpos := S.med_pos
  have hse := Real.sqrt_pos.mpr hpos.1
  have hsm := Real.sqrt_pos.mpr hpos.2
  have hL : 0 < L := by have := S.sep; have := S.h1; have := S.h2; nlinarith [mul_pos (add_pos S.h1 S.h2) hsm]
  obtain ⟨A, hA⟩ := reflects_of_mie S.hmd S.hp S.hk S.h1 S.hmed ea S.ha
  obtain ⟨B0, hB⟩ := reflects_of_mie S.hmd S.hp S.hk S.h2 S.hmed eb S.hb
  obtain ⟨h1, h2, h3⟩ := S.array_of m hA hB
  exact ⟨kern m (k * L * Real.sqrt med.eps) (m - 1) A B0, ⟨fun i s => kern_nonneg (mul_pos (mul_pos S.hk hL) hse) _ _ _ _ _, h1⟩, h2, h3⟩

theorem DenseSign.one {mA mB md : Material} {k σa σb : ℝ} (_ea : DenseSign mA md k σa) (eb : DenseSign mB md k σb) (h : σa = σb) :
    σa * σb = 1 := by rw [h]; rcases eb.sign with h | h <;> rw [h] <;> norm_num

theorem DenseSign.neg {mA mB md : Material} {k σa σb : ℝ} (ea : DenseSign mA md k σa) (eb : DenseSign mB md k σb) (h : σa ≠ σb) :
    σa * σb = -1 := by
  rcases ea.sign with h1 | h1 <;> rcases eb.sign with h2 | h2 <;> rw [h1, h2] at h ⊢ <;> first | exact absurd rfl h | norm_num

theorem DenseSign.prod {mA mB md : Material} {k σa σb : ℝ} (ea : DenseSign mA md k σa) (eb : DenseSign mB md k σb) :
    σa * σb = 1 ∨ σa * σb = -1 := by
  by_cases h : σa = σb
  · exact .inl (ea.one eb h)
  · exact .inr (ea.neg eb h)

theorem det_reindex {n N : ℕ} {M : Matrix (Fin n ⊕ Fin n) (Fin n ⊕ Fin n) ℝ} {G : Matrix (Fin N) (Fin N) ℝ}
    {e : Fin n ⊕ Fin n ≃ Fin N} (hf : Fac M (G.submatrix e e)) :
    (1 - M).det = (1 - G).det ∧ ∀ j, (M ^ j).trace = (G ^ j).trace := by
  have h := hf.same
  refine ⟨?_, fun j => ?_⟩
  · rw [h.det, ← Matrix.submatrix_one_equiv e, show (1 : Matrix _ _ ℝ).submatrix e e - G.submatrix e e = (1 - G).submatrix e e from rfl,
      Matrix.det_submatrix_equiv_self]
  · rw [h.tr, submatrix_pow, trace_submatrix]

variable {lmax lssmax m : ℕ} {B : Blocks (lmax + 1 - transLmin m)} {σa σb : ℝ}

/-- **C96, positivity and size.** Two separate spheres, each of them a perfect conductor or of the same permeability as the
medium, at any non-zero wavenumber: for every `m ≥ 0` and all cut-offs `det(1 - M)` is positive (so that the sign which
`balanced_slogdet` discards is `+1`) and its logarithm is bounded independently of the materials and cut-offs. -/
theorem C96_positive (S : FinitePair mA mB md r1 r2 L k med a b) (ea : DenseSign mA md k σa) (eb : DenseSign mB md k σb)
    (hB : BlocksAt md L k lmax lssmax m a b B) :
    0 < (1 - B.full).det ∧ |Real.log (1 - B.full).det| ≤ pairBound med r1 r2 L k m := by
  obtain ⟨H, -, hH, hM⟩ := S.array m ea eb
  rw [(det_reindex (hM hB)).1]
  exact hH.pos (ea.prod eb) _ _

/-- **C96, sign.** If both spheres are denser than the medium or both less dense, the contribution is attractive,
`ln det(1 - M) ≤ 0`; otherwise it is repulsive. -/
theorem C96_sign (S : FinitePair mA mB md r1 r2 L k med a b) (ea : DenseSign mA md k σa) (eb : DenseSign mB md k σb)
    (hB : BlocksAt md L k lmax lssmax m a b B) :
    (σa = σb → Real.log (1 - B.full).det ≤ 0) ∧ (σa ≠ σb → 0 ≤ Real.log (1 - B.full).det) := by
  obtain ⟨H, -, hH, hM⟩ := S.array m ea eb
  rw [(det_reindex (hM hB)).1]
  refine ⟨fun h => ?_, fun h => ?_⟩
  · rw [ea.one eb h]; exact (hH.sign _ _).1
  · rw [ea.neg eb h]; exact (hH.sign _ _).2

/-- **C96, strict sign.** If both spheres have a non-zero TE coefficient for the smallest `l`, the contribution does not vanish. -/
theorem C96_strict (S : FinitePair mA mB md r1 r2 L k med a b) (ea : DenseSign mA md k σa) (eb : DenseSign mB md k σb)
    (hB : BlocksAt md L k lmax lssmax m a b B) (hm : max 1 m ≤ lmax) (hm' : max 1 m ≤ lssmax)
    (ta : a.TE (transLmin m) ≠ 0) (tb : b.TE (transLmin m) ≠ 0) :
    (σa = σb → Real.log (1 - B.full).det < 0) ∧ (σa ≠ σb → 0 < Real.log (1 - B.full).det) := by
  obtain ⟨H, ⟨-, h0⟩, hH, hM⟩ := S.array m ea eb
  have h00 := h0 ta tb
  rw [(det_reindex (hM hB)).1]
  have hl : transLmin (m : ℤ) = max 1 m := by unfold transLmin; omega
  have hmono := hH.mono (n := 1) (n' := 2 * (lmax + 1 - transLmin m)) (p := 1) (p' := 2 * (lssmax + 1 - transLmin m)) (by omega) (by omega)
  have e : ∀ σ : ℝ, (1 - gram σ H 1 1).det = 1 - σ * (H 0 0) ^ 2 := by
    intro σ
    rw [Matrix.det_fin_one]
    unfold gram
    simp [Matrix.mul_apply, corner, sq]
  have hsq : 0 < H 0 0 ^ 2 := by positivity
  refine ⟨fun h => ?_, fun h => ?_⟩
  · rw [ea.one eb h]
    refine hmono.1.trans_lt ?_
    have := (hH.pos (σ := 1) (.inl rfl) 1 1).1
    rw [e, one_mul] at this ⊢
    exact Real.log_neg this (by linarith)
  · rw [ea.neg eb h]
    refine lt_of_lt_of_le ?_ hmono.2
    rw [e]
    exact Real.log_pos (by linarith)

/-- **C96, traces.** The trace of the `j`-fold round trip has the sign `(σa σb)^j` and decays like `exp(-2 j δ)`. -/
theorem C96_traces (S : FinitePair mA mB md r1 r2 L k med a b) (ea : DenseSign mA md k σa) (eb : DenseSign mB md k σb)
    (hB : BlocksAt md L k lmax lssmax m a b B) (j : ℕ) :
    0 ≤ (σa * σb) ^ (j + 1) * (B.full ^ (j + 1)).trace ∧
    (σa * σb) ^ (j + 1) * (B.full ^ (j + 1)).trace ≤ Real.exp (-(2 * j * optGap med r1 r2 L k)) * pairTrace med r1 r2 L k m := by
  obtain ⟨H, -, hH, hM⟩ := S.array m ea eb
  rw [(det_reindex (hM hB)).2, gram_pow, Matrix.trace_smul, smul_eq_mul, ← mul_assoc, ← mul_pow]
  have h1 : σa * σb * (σa * σb) = 1 := by rcases ea.prod eb with h | h <;> rw [h] <;> norm_num
  rw [h1, one_pow, one_mul]
  refine ⟨(hH.trace_step _ _ j).1, (hH.trace_le _ _ j).trans (le_of_eq ?_)⟩
  rw [← Real.exp_nat_mul]
  congr 2
  ring

/-- **C97, round-trip expansion.** The expansion `-∑_{j ≤ n} Tr M^j / j` converges to `ln det(1 - M)`, the error after `n` round
trips is at most `exp(-2 n δ)` times a constant over `n + 1`; for an attractive pair it approaches the limit from above, so
that every truncation underestimates the binding. -/
theorem C97_expansion (S : FinitePair mA mB md r1 r2 L k med a b) (ea : DenseSign mA md k σa) (eb : DenseSign mB md k σb)
    (hB : BlocksAt md L k lmax lssmax m a b B) (n : ℕ) :
    |-(∑ j ∈ Finset.Icc 1 n, (B.full ^ j).trace / j) - Real.log (1 - B.full).det| ≤
      pairBound med r1 r2 L k m * Real.exp (-(2 * n * optGap med r1 r2 L k)) / (n + 1) ∧
    (σa = σb → Real.log (1 - B.full).det ≤ -(∑ j ∈ Finset.Icc 1 n, (B.full ^ j).trace / j) ∧
      -(∑ j ∈ Finset.Icc 1 n, (B.full ^ j).trace / j) ≤ 0) := by
  have htr : σa = σb → 0 ≤ ∑ j ∈ Finset.Icc 1 n, (B.full ^ j).trace / j := by
    intro h
    refine Finset.sum_nonneg fun j hj => ?_
    obtain ⟨i, rfl⟩ : ∃ i, j = i + 1 := ⟨j - 1, by have := (Finset.mem_Icc.mp hj).1; omega⟩
    have := (C96_traces S ea eb hB i).1
    rw [ea.one eb h, one_pow, one_mul] at this
    positivity
  refine (and_congr_right' (imp_congr_right fun h => and_iff_left (neg_nonpos.mpr (htr h)))).mpr ?_
  obtain ⟨H, -, hH, hM⟩ := S.array m ea eb
  obtain ⟨h1, h2⟩ := (det_reindex (hM hB))
  rw [h1]
  simp only [h2]
  have he : pairBound med r1 r2 L k m * Real.exp (-(2 * n * optGap med r1 r2 L k)) / (n + 1) =
      pairTrace med r1 r2 L k m * Real.exp (-(2 * optGap med r1 r2 L k)) ^ n / ((n + 1) * (1 - Real.exp (-(2 * optGap med r1 r2 L k)))) := by
    unfold pairBound
    rw [← Real.exp_nat_mul, show (n : ℝ) * -(2 * optGap med r1 r2 L k) = -(2 * n * optGap med r1 r2 L k) by ring]
    have : (1 - Real.exp (-(2 * optGap med r1 r2 L k))) ≠ 0 := by have := hH.lt; linarith
    field_simp
  rw [he]
  refine ⟨hH.truncation_abs (ea.prod eb) _ _ n, fun h => ?_⟩
  rw [ea.one eb h]
  have := (hH.truncation (2 * (lmax + 1 - transLmin (m : ℤ))) (2 * (lssmax + 1 - transLmin (m : ℤ))) n).1
  unfold traceSum at this
  linarith

/-- **C98, monotonicity.** Raising either cut-off makes an attractive contribution more attractive, a repulsive one more
repulsive. -/
theorem C98_monotone (S : FinitePair mA mB md r1 r2 L k med a b) (ea : DenseSign mA md k σa) (eb : DenseSign mB md k σb)
    (hB : BlocksAt md L k lmax lssmax m a b B) {lmax' lssmax' : ℕ} {B' : Blocks (lmax' + 1 - transLmin m)}
    (hB' : BlocksAt md L k lmax' lssmax' m a b B') (hl : lmax ≤ lmax') (hl' : lssmax ≤ lssmax') :
    (σa = σb → Real.log (1 - B'.full).det ≤ Real.log (1 - B.full).det) ∧
    (σa ≠ σb → Real.log (1 - B.full).det ≤ Real.log (1 - B'.full).det) := by
  obtain ⟨H, -, hH, hM⟩ := S.array m ea eb
  rw [(det_reindex (hM hB)).1, (det_reindex (hM hB')).1]
  have n1 : 2 * (lmax + 1 - transLmin (m : ℤ)) ≤ 2 * (lmax' + 1 - transLmin (m : ℤ)) := by omega
  have n2 : 2 * (lssmax + 1 - transLmin (m : ℤ)) ≤ 2 * (lssmax' + 1 - transLmin (m : ℤ)) := by omega
  refine ⟨fun h => ?_, fun h => ?_⟩
  · rw [ea.one eb h]; exact (hH.mono n1 n2).1
  · rw [ea.neg eb h]; exact (hH.mono n1 n2).2

/-- **C98, convergence.** For every `m` the contribution converges when both cut-offs tend to infinity. -/
theorem C98_converges (S : FinitePair mA mB md r1 r2 L k med a b) (ea : DenseSign mA md k σa) (eb : DenseSign mB md k σb)
    (m : ℕ) {B : ∀ lmax _lssmax : ℕ, Blocks (lmax + 1 - transLmin m)}
    (hB : ∀ lmax lssmax, max 1 m ≤ lmax → max 1 m ≤ lssmax → BlocksAt md L k lmax lssmax m a b (B lmax lssmax)) :
    ∃ v, |v| ≤ pairBound med r1 r2 L k m ∧
      Tendsto (fun c : ℕ × ℕ => Real.log (1 - (B c.1 c.2).full).det) atTop (𝓝 v) := by
  obtain ⟨H, -, hH, hM⟩ := S.array m ea eb
  obtain ⟨v, hv, hlim, -, -⟩ := hH.limit (ea.prod eb)
  refine ⟨v, hv, ?_⟩
  have hidx : Tendsto (fun c : ℕ × ℕ => (2 * (c.1 + 1 - transLmin (m : ℤ)), 2 * (c.2 + 1 - transLmin (m : ℤ)))) atTop atTop := by
    rw [← prod_atTop_atTop_eq]
    have : Tendsto (fun c : ℕ => 2 * (c + 1 - transLmin (m : ℤ))) atTop atTop :=
      (tendsto_id.const_mul_atTop' (by norm_num : 0 < 2)).comp ((tendsto_sub_atTop_nat _).comp (tendsto_add_atTop_nat 1))
    exact this.prodMap this
  refine (hlim.comp hidx).congr' ?_
  filter_upwards [eventually_ge_atTop ((max 1 m, max 1 m) : ℕ × ℕ)] with c hc
  rw [(det_reindex (hM (hB c.1 c.2 hc.1 hc.2))).1]
  rfl

end

/-! ## The hypotheses can be met -/

theorem mieCoef_exists {m md : Material} (hm : m.Physical) (hd : md.Physical) (hmd : md.cls ≠ .pec) {k r : ℝ} (hk : 0 < k) (hr : 0 < r) :
    ∃ a : MieCoef, ∀ l, 1 ≤ l → mie exactBes exactBes m md l k r = .ok ⟨a.TE l, a.TM l, a.ln l⟩ := by
  have : ∀ l, ∃ c : Mie, 1 ≤ l → mie exactBes exactBes m md l k r = .ok c := by
    intro l
    by_cases hl : 1 ≤ l
    · obtain ⟨c, hc⟩ := C42_mie_defined hl (C42_exact_table hl) hm hd hmd hk hr
      exact ⟨c, fun _ => hc⟩
    · exact ⟨⟨0, 0, 0⟩, fun h => absurd h hl⟩
  choose c hc using this
  exact ⟨⟨fun l => (c l).TE, fun l => (c l).TM, fun l => (c l).ln⟩, fun l hl => hc l hl⟩

/-- Physical materials have Mie coefficients at every non-zero wavenumber, so that every two separate spheres form a `FinitePair`. -/
theorem finitePair_exists {mA mB md : Material} (hA : mA.Physical) (hB : mB.Physical) (hmd : md.cls ≠ .pec) (hd : md.Physical)
    {r1 r2 L k : ℝ} (hk : 0 < k) (h1 : 0 < r1) (h2 : 0 < r2) (hs : (r1 + r2) * Real.sqrt (md.muV k) < L) :
    ∃ a b, FinitePair mA mB md r1 r2 L k ⟨md.epsV k, md.muV k⟩ a b := by
  obtain ⟨a, ha⟩ := mieCoef_exists hA hd hmd hk h1
  obtain ⟨b, hb⟩ := mieCoef_exists hB hd hmd hk h2
  exact ⟨a, b, hmd, hd, hk, h1, h2, (medium_val hmd hd hk).1, hs, ha, hb⟩

theorem blockmatricesAt_ok {lmax lssmax m : ℕ} (hm : max 1 m ≤ lmax) (hm' : max 1 m ≤ lssmax) (x : ℝ) (a b : MieCoef) :
    ∃ B, blockmatricesAt lmax lssmax m true x ((List.range (lmax + lssmax + 1 + 1)).map (lnk1 x)) a b = .ok B := by
  have hlm : transLmin (m : ℤ) = max 1 m := by unfold transLmin; omega
  have hn : 0 < lmax + 1 - transLmin (m : ℤ) := by omega
  have hpp : 0 < lssmax + 1 - transLmin (m : ℤ) := by omega
  have hlen : ((List.range (lmax + lssmax + 1 + 1)).map (lnk1 x)).length = lmax + lssmax + 2 := by simp
  have hV : transAb lmax lssmax m true x ((List.range (lmax + lssmax + 1 + 1)).map (lnk1 x)) =
      .ok fun i j => vVal true m x ((List.range (lmax + lssmax + 1 + 1)).map (lnk1 x))
        (transLmin (m : ℤ) + i.1) (transLmin (m : ℤ) + j.1) := by
    unfold transAb
    refine finM_ok fun i => finM_ok fun j => getVl1l2_ok true m _ ?_
    have := i.2; have := j.2; omega
  cases hE : roundTripElements lmax lssmax m true x ((List.range (lmax + lssmax + 1 + 1)).map (lnk1 x)) a b with
  | error er => unfold roundTripElements at hE; rw [hV] at hE; cases hE
  | ok E =>
    obtain ⟨Bk, hBk⟩ := C11_blockmatrices_total hn hpp E
    refine ⟨Bk, ?_⟩
    unfold blockmatricesAt
    rw [hE, ok_bind, hBk]

theorem medium_eps {md : Material} {k : ℝ} {med : Medium} (h : md.medium k = .ok med) : md.epsilon k = .ok med.eps := by
  unfold Material.medium at h
  cases hq : md.epsilon k with
  | error er => rw [hq] at h; cases h
  | ok e =>
    rw [hq, ok_bind] at h
    cases hq' : md.mu k with
    | error er => rw [hq'] at h; cases h
    | ok u => rw [hq', ok_bind] at h; injection h with h; rw [← h]

/-- The blocks exist whenever `m` does not exceed the cut-offs. -/
theorem blocksAt_exists {md : Material} (hmd : md.cls ≠ .pec) (hd : md.Physical) (L : ℝ) {k : ℝ} (hk : 0 < k) {lmax lssmax m : ℕ}
    (hm : max 1 m ≤ lmax) (hm' : max 1 m ≤ lssmax) (a b : MieCoef) : ∃ B, BlocksAt md L k lmax lssmax m a b B := by
  have he := medium_eps (medium_val hmd hd hk).1
  obtain ⟨B, hB⟩ := blockmatricesAt_ok hm hm' (k * L * Real.sqrt (md.epsV k)) a b
  exact ⟨B, _, _, he, trans_row_ext _ _, hB⟩

theorem one_le_epsV {es : List Osc} (h : (⟨.lorentz, es, none⟩ : Material).Physical) {k : ℝ} (hk : 0 < k) :
    (⟨.lorentz, [], none⟩ : Material).epsV k ≤ (⟨.lorentz, es, none⟩ : Material).epsV k := by
  rw [epsV_lorentz rfl h hk, epsV_lorentz rfl vac_diel.2 hk]
  simp only [List.map_nil, List.sum_nil, add_zero, le_add_iff_nonneg_right]
  refine List.sum_nonneg fun x hx => ?_
  rw [List.mem_map] at hx
  obtain ⟨p, hpm, rfl⟩ := hx
  exact div_nonneg (sq_nonneg _) (lorDen_pos hk (h.osc p hpm)).le

/-- Every non-magnetic Lorentz material with non-negative parameters is denser than vacuum ... -/
theorem dense_vacuum {es : List Osc} (h : (⟨.lorentz, es, none⟩ : Material).Physical) {k : ℝ} (hk : 0 < k) :
    DenseSign ⟨.lorentz, es, none⟩ ⟨.lorentz, [], none⟩ k 1 :=
  .inl ⟨rfl, .inr ⟨by simp, h, _, _, (medium_val (by simp) h hk).1, (medium_val (by simp) vac_diel.2 hk).1, rfl, one_le_epsV h hk⟩⟩

/-- ... and an empty bubble in it is less dense. -/
theorem bubble_dense {es : List Osc} (h : (⟨.lorentz, es, none⟩ : Material).Physical) {k : ℝ} (hk : 0 < k) :
    DenseSign ⟨.lorentz, [], none⟩ ⟨.lorentz, es, none⟩ k (-1) :=
  .inr ⟨rfl, by simp, vac_diel.2, _, _, (medium_val (by simp) vac_diel.2 hk).1, (medium_val (by simp) h hk).1, rfl, one_le_epsV h hk⟩

theorem gold_physical : (⟨.lorentz, eGold, none⟩ : Material).Physical := ⟨by norm_num [eGold], by simp, by simp⟩

theorem muV_none (es : List Osc) (k : ℝ) : (⟨.lorentz, es, none⟩ : Material).muV k = 1 := rfl

/-- Two gold spheres in vacuum attract each other at every imaginary frequency, for all radii, distances and cut-offs. -/
example {r1 r2 L k : ℝ} (hk : 0 < k) (h1 : 0 < r1) (h2 : 0 < r2) (hs : r1 + r2 < L) {lmax lssmax m : ℕ}
    (hm : max 1 m ≤ lmax) (hm' : max 1 m ≤ lssmax) :
    ∃ a b B, BlocksAt ⟨.lorentz, [], none⟩ L k lmax lssmax m a b B ∧ 0 < (1 - B.full).det ∧ Real.log (1 - B.full).det ≤ 0 := by
  obtain ⟨a, b, S⟩ := finitePair_exists gold_physical gold_physical (by simp) vac_diel.2 hk h1 h2 (by rw [muV_none]; simpa using hs)
  obtain ⟨B, hB⟩ := blocksAt_exists (by simp) vac_diel.2 L hk hm hm' a b
  have e := dense_vacuum gold_physical hk
  exact ⟨a, b, B, hB, (C96_positive S e e hB).1, (C96_sign S e e hB).1 rfl⟩

/-- A perfectly conducting sphere and an empty bubble in water repel each other at every imaginary frequency. -/
example {r1 r2 L k : ℝ} (hk : 0 < k) (h1 : 0 < r1) (h2 : 0 < r2) (hs : r1 + r2 < L) {lmax lssmax m : ℕ}
    (hm : max 1 m ≤ lmax) (hm' : max 1 m ≤ lssmax) :
    ∃ a b B, BlocksAt ⟨.lorentz, eWater, none⟩ L k lmax lssmax m a b B ∧ 0 < (1 - B.full).det ∧ 0 ≤ Real.log (1 - B.full).det := by
  obtain ⟨a, b, S⟩ := finitePair_exists (mA := ⟨.pec, [], none⟩) ⟨by simp, by simp, by simp⟩ vac_diel.2 (by simp) water_diel.2 hk h1 h2
    (by rw [muV_none]; simpa using hs)
  obtain ⟨B, hB⟩ := blocksAt_exists (by simp) water_diel.2 L hk hm hm' a b
  have e : DenseSign ⟨.pec, [], none⟩ ⟨.lorentz, eWater, none⟩ k 1 := .inl ⟨rfl, .inl rfl⟩
  have e' := bubble_dense water_diel.2 hk
  exact ⟨a, b, B, hB, (C96_positive S e e' hB).1, (C96_sign S e e' hB).2 (by norm_num)⟩

end CasSph
