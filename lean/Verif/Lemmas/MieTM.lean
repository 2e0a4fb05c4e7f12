import Verif.Lemmas.Stronger
import Verif.Lemmas.HelGram

/-! # Spheres denser than the medium reflect TM at least as strongly as TE; contributions of consecutive `m` -/

namespace CasSph

open Spec Set

/-- The logarithmic derivative of the modified spherical Bessel function of the first kind (times its argument), divided by the argument, falls. -/
theorem idX_lin_anti {l : ℕ} (hl : 1 ≤ l) {x y : ℝ} (hx : 0 < x) (hxy : x ≤ y) : idX l y / y ≤ idX l x / x := by
  obtain ⟨c, rfl⟩ := Nat.exists_eq_add_of_le' hl
  set F : ℝ → ℝ := fun t => sphI c t / sphI (c + 1) t - (c + 1) / t with hF
  have e : ∀ t : ℝ, 0 < t → idX (c + 1) t / t = F t := by
    intro t ht
    simp only [hF]
    unfold idX
    rw [Nat.add_sub_cancel]
    push_cast
    field_simp
    ring
  have hd : ∀ t : ℝ, 0 < t → HasDerivAt F (1 + (c + 1) * (c + 2) / t ^ 2 - F t ^ 2) t := by
    intro t ht
    have p1 := (sphI_pos (c + 1) ht).ne'
    have r := sphI_rec c ht.ne'
    have d := ((sphI_deriv c ht).fun_div (sphI_deriv (c + 1) ht) p1).fun_sub ((hasDerivAt_const t ((c : ℝ) + 1)).fun_div (hasDerivAt_id t) ht.ne')
    simp only [id_eq] at d
    refine d.congr_deriv ?_
    simp only [hF]
    rw [show c + 1 + 1 = c + 2 from rfl, r]
    generalize sphI (c + 1) t = q at *
    generalize sphI c t = p at *
    push_cast
    field_simp
    ring
  have ha : AntitoneOn F (Ioi 0) := by
    refine antitoneOn_of_deriv_nonpos (convex_Ioi 0) (fun t ht => (hd t ht).continuousAt.continuousWithinAt)
      (fun t ht => (hd t (by simpa using ht)).differentiableAt.differentiableWithinAt) fun t ht => ?_
    have ht : 0 < t := by simpa using ht
    rw [(hd t ht).deriv, ← e t ht, div_pow]
    have := idX_sq_ge hl ht
    push_cast at this
    have h2 : 0 < t ^ 2 := by positivity
    have : 1 + ((c : ℝ) + 1) * (c + 2) / t ^ 2 ≤ idX (c + 1) t ^ 2 / t ^ 2 := by
      rw [le_div_iff₀ h2, add_mul, div_mul_cancel₀ _ h2.ne']; linarith
    linarith
  rw [e x hx, e y (hx.trans_le hxy)]
  exact ha hx (hx.trans_le hxy) hxy

/-- The inequality between the reflection coefficients: `a ≥ b` are the permittivities. -/
theorem te_le_tm_aux {a b s J I κ : ℝ} (hb : 0 < b) (hs : 1 ≤ s) (ha : a = b * s ^ 2) (hκ : 0 < κ) (hκJ : κ ≤ J) (h1 : J ≤ I) (h2 : I ≤ s * J) :
    (I - J) * (b * I + a * κ) ≤ (a * J - b * I) * (I + κ) := by
  subst ha
  have hJ : 0 < J := hκ.trans_le hκJ
  have e : (b * s ^ 2 * J - b * I) * (I + κ) - (I - J) * (b * I + b * s ^ 2 * κ) =
      b * ((s * J - I) * (s + 1) * (J + κ) + (I - J) * (J - κ) * s * (s - 1) + 2 * ((I - J) * (s * J - I))) := by ring
  have p1 : 0 ≤ I - J := sub_nonneg.mpr h1
  have p2 : 0 ≤ s * J - I := sub_nonneg.mpr h2
  have p3 : 0 ≤ J - κ := sub_nonneg.mpr hκJ
  have p4 : 0 ≤ s - 1 := sub_nonneg.mpr hs
  have p5 : 0 ≤ s := by linarith
  rw [← sub_nonneg, e]
  positivity

/-- A sphere is at least as dense as the medium at the wavenumber `k`, or a perfect conductor. -/
def Denser (m md : Material) (k : ℝ) : Prop := m.cls = .pec ∨ (m.cls ≠ .pec ∧ md.epsV k ≤ m.epsV k)

/-- A sphere denser than the medium reflects TM waves at least as strongly as TE waves. -/
theorem ampV_TE_le_TM {m md : Material} (hs : SphereMat m) (hd : MediumMat md) {r : ℝ} (hr : 0 < r) (i : ℕ) {k : ℝ} (hk : 0 < k) (hc : Denser m md k) :
    ampV m md r k false (i + 1) ≤ ampV m md r k true (i + 1) := by
  have e2 := (medium_val hd.cls hd.phys hk).2
  have hl : 1 ≤ i + 1 := by omega
  have hpi := Real.pi_pos
  rcases hc with hm | ⟨hm, hc⟩
  · rw [ampV_pec hm hd hr i hk, ampV_pec hm hd hr i hk]
    have hρ : 0 < k * Real.sqrt (md.epsV k) * r := by positivity
    rw [pecR_true i hρ]
    unfold pecR
    have hI := sphI_pos (i + 1) hρ
    have hK := sphK_pos (i + 1) hρ
    have h1 : 1 ≤ idX (i + 1) (k * Real.sqrt (md.epsV k) * r) / -kdX (i + 1) (k * Real.sqrt (md.epsV k) * r) := by
      rw [one_le_div (neg_pos.mpr (kdX_neg hl hρ))]; exact kdX_le_idX hl hρ
    refine mul_le_mul_of_nonneg_left (le_mul_of_one_le_left (by positivity) h1) (by positivity)
  · have e1 := (medium_val hm hs.phys hk).2
    rw [ampV_diel hm hs hd hr hl hk, ampV_diel hm hs hd hr hl hk]
    refine mul_le_mul_of_nonneg_left ?_ (by positivity)
    simp only [Bool.false_eq_true, if_false, if_true]
    set a := m.epsV k
    set b := md.epsV k
    have hp : 0 < k * Real.sqrt a := by positivity
    have hq : 0 < k * Real.sqrt b := by positivity
    rw [refl_val hl one_pos one_pos hp hq hr, refl_val hl e2 e1 hp hq hr, abs_mul, abs_mul]
    refine mul_le_mul_of_nonneg_right ?_ (abs_nonneg _)
    have hJ := idX_pos hl (mul_pos hq hr)
    have hI := idX_pos hl (mul_pos hp hr)
    have hK := kdX_neg hl (mul_pos hq hr)
    have hKJ := kdX_le_idX hl (mul_pos hq hr)
    have hsq : Real.sqrt b ≤ Real.sqrt a := Real.sqrt_le_sqrt hc
    have hb0 : 0 < Real.sqrt b := Real.sqrt_pos.mpr e2
    have hle : k * Real.sqrt b * r ≤ k * Real.sqrt a * r := by gcongr
    have h1 : idX (i + 1) (k * Real.sqrt b * r) ≤ idX (i + 1) (k * Real.sqrt a * r) := by
      rcases hle.eq_or_lt with e | e
      · rw [e]
      · exact (idX_strictMono hl (mul_pos hq hr) e).le
    have h2 : idX (i + 1) (k * Real.sqrt a * r) ≤ Real.sqrt a / Real.sqrt b * idX (i + 1) (k * Real.sqrt b * r) := by
      have := idX_lin_anti hl (mul_pos hq hr) hle
      rw [div_le_div_iff₀ (mul_pos hp hr) (mul_pos hq hr)] at this
      rw [div_mul_eq_mul_div, le_div_iff₀ hb0]
      have hkr : 0 < k * r := by positivity
      refine le_of_mul_le_mul_left ?_ hkr
      nlinarith
    have main := te_le_tm_aux (a := a) (b := b) (s := Real.sqrt a / Real.sqrt b) e2 ((one_le_div hb0).mpr hsq)
      (by rw [div_pow, Real.sq_sqrt e1.le, Real.sq_sqrt e2.le]; field_simp) (neg_pos.mpr hK) hKJ h1 h2
    generalize idX (i + 1) (k * Real.sqrt b * r) = J at *
    generalize idX (i + 1) (k * Real.sqrt a * r) = I at *
    generalize kdX (i + 1) (k * Real.sqrt b * r) = κ at *
    have d1 : 0 < 1 * I - 1 * κ := by linarith
    have d2 : 0 < b * I - a * κ := by nlinarith
    have n1 : 0 ≤ (1 * I - 1 * J) / (1 * I - 1 * κ) := div_nonneg (by linarith) d1.le
    have n2 : 0 ≤ a * J - b * I := by
      by_contra hh
      have : (a * J - b * I) * (I + -κ) < 0 := mul_neg_of_neg_of_pos (not_le.mp hh) (by linarith)
      have : 0 ≤ (I - J) * (b * I + a * -κ) := mul_nonneg (by linarith) (by linarith)
      linarith
    rw [abs_of_nonneg n1, abs_div, abs_of_pos d2, abs_of_nonpos (by linarith), div_le_div_iff₀ d1 d2]
    linarith

end CasSph
