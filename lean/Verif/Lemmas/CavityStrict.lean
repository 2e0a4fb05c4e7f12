import Verif.Lemmas.CavityMie
import Verif.Lemmas.PairValue

/-! Sphere and wall with contrast have a non-zero coupling in the smallest degree. -/

namespace CasSph

open Polynomial Spec

theorem lapI_pos {p : ℝ[X]} (h : ∀ t ∈ Set.Ioo (-1 : ℝ) 1, 0 < p.eval t) (x : ℝ) : 0 < lapI x p := by
  unfold lapI
  refine half_pos (intervalIntegral.intervalIntegral_pos_of_pos_on (lapI_ii x p _ _) (fun t ht => ?_) (by norm_num))
  exact mul_pos (Real.exp_pos _) (h t ht)

theorem dl_diag (m : ℕ) (t : ℝ) : 0 < (dl m m).eval t := by
  have h0 : derivative (dl m m) = 0 := by rw [← dl_succ]; exact dl_none (by omega)
  have h1 := derivative_eq_zero.mp h0
  obtain ⟨c, hc⟩ := natDegree_eq_zero.mp h1
  have h2 := dq_pos (le_refl (1 : ℝ)) m m le_rfl
  unfold dq at h2
  rw [← hc] at h2 ⊢
  simpa using h2

/-- The coupling of the smallest degree with itself is positive. -/
theorem tIs_diag (m : ℕ) (x : ℝ) : 0 < tIs m x false false (m - 1) (m - 1) := by
  unfold tIs tI
  rw [if_pos rfl]
  have hn := nV_pos (l := m - 1 + 1) (by omega) m
  have key : 0 < -((-1) ^ m * lapI x (eePol (m - 1 + 1) (m - 1 + 1) m)) := by
    rw [← lapI_C_mul, ← lapI_neg]
    refine lapI_pos (fun t ht => ?_) x
    have hu : 0 < 1 - t ^ 2 := by nlinarith [ht.1, ht.2]
    cases m with
    | zero =>
      simp only [eePol, eval_neg, eval_mul, eval_C, uPol, eval_sub, eval_pow, eval_X, eval_one]
      have := dl_diag 1 t
      have h := mul_pos hu (mul_pos this this)
      simp only [zero_add, Nat.zero_sub, pow_zero, one_mul]
      linarith
    | succ m =>
      have := dl_diag (m + 1) t
      simp only [eePol, eval_neg, eval_mul, eval_add, eval_C, uPol, eval_sub, eval_pow, eval_X, eval_one, Nat.add_sub_cancel]
      have e : -((-1) ^ (m + 1) * ((t ^ 2 - 1) ^ m * (eval t (tP (m + 1) (m + 1)) * eval t (tP (m + 1) (m + 1)) +
          ((m + 1 : ℕ) : ℝ) ^ 2 * (eval t (dl (m + 1) (m + 1)) * eval t (dl (m + 1) (m + 1)))))) =
          (1 - t ^ 2) ^ m * (eval t (tP (m + 1) (m + 1)) ^ 2 + ((m + 1 : ℕ) : ℝ) ^ 2 * eval t (dl (m + 1) (m + 1)) ^ 2) := by
        rw [show 1 - t ^ 2 = (-1) * (t ^ 2 - 1) by ring, mul_pow, pow_succ]
        ring
      rw [e]
      have h1 : (0 : ℝ) < ((m + 1 : ℕ) : ℝ) := by positivity
      positivity
  have := mul_pos (mul_pos hn hn) key
  linarith

theorem kdX_lt {l : ℕ} (hl : 1 ≤ l) {x y : ℝ} (hx : 0 < x) (hxy : x < y) : kdX l y < kdX l x := by
  have := (kRatio_mono hl hx hxy.le).2.2 hxy
  unfold kdX
  linarith

theorem wall_TE_ne {m md : Material} (h : SphereMat m) (hd : MediumMat md) {r : ℝ} (hr : 0 < r) {l : ℕ} (hl : 1 ≤ l) {k : ℝ} (hk : 0 < k)
    (hc : HasContrast m md k) {c : Mie} (he : mieInternal exactBes exactBes md m l k r = .ok c) : c.TE ≠ 0 := by
  have hpre : (-1 : ℝ) ^ l * 2 / Real.pi ≠ 0 :=
    div_ne_zero (mul_ne_zero (pow_ne_zero _ (by norm_num)) two_ne_zero) Real.pi_pos.ne'
  obtain ⟨ha, hap⟩ := medium_val hd.cls hd.phys hk
  have hap' := medium_is_pos hd.cls hd.phys hk ha
  generalize hA : (⟨md.epsV k, md.muV k⟩ : Medium) = a at *
  have hxa : 0 < k * r * a.n := mul_pos (mul_pos hk hr) (a.n_pos hap')
  have hid : 0 < idT l (k * r * a.n) (exactBes l (k * r * a.n)) := idT_pos (exactBes_ok hl hxa)
  by_cases hp : m.cls = .pec
  · rw [mieInternal_pec hp ha, miePECIntCore_ok hid] at he
    injection he with he
    subst he
    exact hpre
  · have hne := hc.resolve_left hp
    obtain ⟨hb, hbp⟩ := medium_val hp h.phys hk
    have hbp' := medium_is_pos hp h.phys hk hb
    generalize hB : (⟨m.epsV k, m.muV k⟩ : Medium) = b at *
    have hxb : 0 < k * r * b.n := mul_pos (mul_pos hk hr) (b.n_pos hbp')
    rw [mieInternal_diel hp ha hb, mieIntCore_ok hap' hbp' hid (kdT_neg hl hxb _)] at he
    injection he with he
    subst he
    simp only
    have hI := idX_pos hl hxa
    have hE := kdX_neg hl hxb
    have hmu : a.mu = 1 ∧ b.mu = 1 := by rw [← hA, ← hB]; exact ⟨muV_of_none hd.mag k, muV_of_none h.mag k⟩
    have heps : a.eps ≠ b.eps := by rw [← hA, ← hB]; exact fun e => hne e.symm
    have hxne : k * r * a.n ≠ k * r * b.n := by
      intro e
      have := mul_left_cancel₀ (mul_pos hk hr).ne' e
      unfold Medium.n at this
      rw [hmu.1, hmu.2, mul_one, mul_one] at this
      exact heps ((Real.sqrt_inj hap'.1.le hbp'.1.le).mp this)
    have hK : kdX l (k * r * a.n) ≠ kdX l (k * r * b.n) := by
      rcases lt_or_gt_of_ne hxne with e | e
      · exact (kdX_lt hl hxa e).ne'
      · exact (kdX_lt hl hxb e).ne
    rw [idT_exact hl hxa, kdT_exact hxa, kdT_exact hxb, hmu.1, hmu.2, one_mul, one_mul, one_mul]
    exact mul_ne_zero (div_ne_zero (sub_ne_zero.mpr hK) (by linarith : 0 < idX l (k * r * a.n) - kdX l (k * r * b.n)).ne') hpre

theorem RefBy.amp_pos {c : MieCoef} {σ : ℝ} {bd A : Bool → ℕ → ℝ} (h : RefBy c σ bd A) {i : ℕ} (hc : c.TE (i + 1) ≠ 0) : 0 < A false i := by
  refine lt_of_le_of_ne ((h i).1 false).1 fun e => ?_
  have h1 := (h i).2.1
  rw [← e, mul_zero] at h1
  exact (mul_ne_zero hc (Real.exp_pos _).ne') h1

theorem kernC_first {m : ℕ} (x : ℝ) {A B : Bool → ℕ → ℝ} (hA : 0 < A false (m - 1)) (hB : 0 < B false (m - 1)) :
    kernC m x (m - 1) A B 0 0 ≠ 0 := by
  have h := mul_pos (mul_pos (Real.sqrt_pos.mpr hA) (tIs_diag m x)) (Real.sqrt_pos.mpr hB)
  unfold kernC kernOf
  simpa using h.ne'

end CasSph
