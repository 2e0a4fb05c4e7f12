import Verif.Spec.Scattering
import Verif.Props.ScatInternal

/-! # Continuity conditions, monotonicity of the radial functions -/

namespace CasSph

open Spec Filter Topology Nat Set

theorem xI_eq {l : ℕ} {x : ℝ} (hx : 0 < x) : idX l x * sphI l x = x * sphI (l - 1) x - l * sphI l x := by
  unfold idX
  have := (sphI_pos l hx).ne'
  field_simp
  ring

theorem xK_eq {l : ℕ} {x : ℝ} (hx : 0 < x) : kdX l x * sphK l x = -(x * sphK (l - 1) x) - l * sphK l x := by
  unfold kdX
  have := (sphK_pos l hx).ne'
  field_simp
  ring

theorem xI_deriv {l : ℕ} (hl : 1 ≤ l) {x : ℝ} (hx : 0 < x) :
    HasDerivAt (fun y => y * sphI l y) (idX l x * sphI l x) x := by
  refine ((hasDerivAt_id x).mul (sphI_deriv l hx)).congr_deriv ?_
  rw [xI_eq hx]
  obtain ⟨l, rfl⟩ := Nat.exists_eq_add_of_le' hl
  have := sphI_rec' l x
  simp only [Nat.add_sub_cancel, id]
  push_cast
  rw [mul_add, ← mul_assoc, mul_div_cancel₀ _ hx.ne']
  linarith

theorem xK_deriv {l : ℕ} (hl : 1 ≤ l) {x : ℝ} (hx : 0 < x) :
    HasDerivAt (fun y => y * sphK l y) (kdX l x * sphK l x) x := by
  refine ((hasDerivAt_id x).mul (sphK_deriv l hx)).congr_deriv ?_
  rw [xK_eq hx]
  obtain ⟨l, rfl⟩ := Nat.exists_eq_add_of_le' hl
  have := sphK_rec l hx.ne'
  simp only [Nat.add_sub_cancel, id]
  rw [this]
  push_cast
  field_simp
  ring

theorem xI_mono {l : ℕ} (hl : 1 ≤ l) : StrictMonoOn (fun x => idX l x * sphI l x) (Ioi 0) := by
  have hd : ∀ x : ℝ, 0 < x → HasDerivAt (fun x => x * sphI (l - 1) x - l * sphI l x)
      (sphI l x * (x + l * (l + 1) / x)) x := by
    intro x hx
    refine (((hasDerivAt_id x).mul (sphI_deriv (l - 1) hx)).sub ((sphI_deriv l hx).const_mul (l : ℝ))).congr_deriv ?_
    obtain ⟨l, rfl⟩ := Nat.exists_eq_add_of_le' hl
    have := sphI_rec l hx.ne'
    simp only [Nat.add_sub_cancel, id]
    rw [this]
    push_cast
    field_simp
    ring
  have hm : StrictMonoOn (fun x => x * sphI (l - 1) x - l * sphI l x) (Ioi 0) := by
    refine strictMonoOn_of_deriv_pos (convex_Ioi 0) (fun x hx => (hd x hx).continuousAt.continuousWithinAt) ?_
    intro x hx
    rw [interior_Ioi] at hx
    have hx' : 0 < x := hx
    rw [(hd x hx).deriv]
    have := sphI_pos l hx'
    positivity
  intro x hx y hy hxy
  have := hm hx hy hxy
  simp only at this ⊢
  rw [xI_eq (show 0 < x from hx), xI_eq (show 0 < y from hy)]
  exact this

theorem xK_mono {l : ℕ} (hl : 1 ≤ l) : StrictMonoOn (fun x => kdX l x * sphK l x) (Ioi 0) := by
  have hd : ∀ x : ℝ, 0 < x → HasDerivAt (fun x => -(x * sphK (l - 1) x) - l * sphK l x)
      (sphK l x * (x + l * (l + 1) / x)) x := by
    intro x hx
    refine (((hasDerivAt_id x).mul (sphK_deriv (l - 1) hx)).neg.sub ((sphK_deriv l hx).const_mul (l : ℝ))).congr_deriv ?_
    obtain ⟨l, rfl⟩ := Nat.exists_eq_add_of_le' hl
    have := sphK_rec l hx.ne'
    simp only [Nat.add_sub_cancel, id]
    rw [this]
    push_cast
    field_simp
    ring
  have hm : StrictMonoOn (fun x => -(x * sphK (l - 1) x) - l * sphK l x) (Ioi 0) := by
    refine strictMonoOn_of_deriv_pos (convex_Ioi 0) (fun x hx => (hd x hx).continuousAt.continuousWithinAt) ?_
    intro x hx
    rw [interior_Ioi] at hx
    have hx' : 0 < x := hx
    rw [(hd x hx).deriv]
    have := sphK_pos l hx'
    positivity
  intro x hx y hy hxy
  have := hm hx hy hxy
  simp only at this ⊢
  rw [xK_eq (show 0 < x from hx), xK_eq (show 0 < y from hy)]
  exact this

theorem sphI_mono_arg (l : ℕ) : StrictMonoOn (sphI l) (Ioi 0) := by
  refine strictMonoOn_of_deriv_pos (convex_Ioi 0) (fun x hx => (sphI_deriv l hx).continuousAt.continuousWithinAt) ?_
  intro x hx
  rw [interior_Ioi] at hx
  have hx' : 0 < x := hx
  rw [(sphI_deriv l hx).deriv]
  have := sphI_pos l hx'
  have := sphI_pos (l + 1) hx'
  positivity

theorem sphK_anti_arg {l : ℕ} (hl : 1 ≤ l) : StrictAntiOn (sphK l) (Ioi 0) := by
  refine strictAntiOn_of_deriv_neg (convex_Ioi 0) (fun x hx => (sphK_deriv l hx).continuousAt.continuousWithinAt) ?_
  intro x hx
  rw [interior_Ioi] at hx
  have hx' : 0 < x := hx
  rw [(sphK_deriv l hx).deriv]
  obtain ⟨l, rfl⟩ := Nat.exists_eq_add_of_le' hl
  rw [sphK_rec l hx'.ne']
  have h1 := sphK_pos l hx'
  have h2 := sphK_pos (l + 1) hx'
  have : (0 : ℝ) < (2 * l + 3) / x * sphK (l + 1) x - ((l + 1 : ℕ) : ℝ) / x * sphK (l + 1) x := by
    have e : (2 * l + 3 : ℝ) / x * sphK (l + 1) x - ((l + 1 : ℕ) : ℝ) / x * sphK (l + 1) x =
      (l + 2) / x * sphK (l + 1) x := by push_cast; ring
    rw [e]; positivity
  linarith

/-- the radial function `u = i_l - t k_l` and `(x u)'` are non-negative at `x` -/
def Grow (l : ℕ) (x t : ℝ) : Prop := t * sphK l x ≤ sphI l x ∧ t * (kdX l x * sphK l x) ≤ idX l x * sphI l x

theorem Grow.mono {l : ℕ} (hl : 1 ≤ l) {x y t : ℝ} (hx : 0 < x) (hxy : x ≤ y) (h : Grow l x t) : Grow l y t := by
  have hy : 0 < y := hx.trans_le hxy
  have hi := sphI_pos l hx
  have hi' := sphI_pos l hy
  have hk' := sphK_pos l hy
  have a1 := (sphI_mono_arg l).monotoneOn hx hy hxy
  have a2 := (sphK_anti_arg hl).antitoneOn hx hy hxy
  have a3 := (xI_mono hl).monotoneOn hx hy hxy
  have a4 := (xK_mono hl).monotoneOn hx hy hxy
  have kn := mul_neg_of_neg_of_pos (kdX_neg hl hy) hk'
  have idp : 0 < idX l y := by have := idX_gt hl hy; have : (0 : ℝ) ≤ l := by positivity
                               linarith
  have ip := mul_pos idp hi'
  rcases le_total 0 t with ht | ht
  · exact ⟨by nlinarith [h.1, mul_le_mul_of_nonneg_left a2 ht], by nlinarith⟩
  · exact ⟨by nlinarith, by nlinarith [h.2, mul_le_mul_of_nonpos_left a4 ht]⟩

theorem radial_deriv {l : ℕ} (hl : 1 ≤ l) {q r : ℝ} (hq : 0 < q) (hr : 0 < r) (A B : ℝ) :
    deriv (fun s => s * radial l q A B s) r =
      A * (idX l (q * r) * sphI l (q * r)) + B * (kdX l (q * r) * sphK l (q * r)) := by
  have hx : 0 < q * r := mul_pos hq hr
  have hlin : HasDerivAt (fun s : ℝ => q * s) q r := by simpa using (hasDerivAt_id r).const_mul q
  have h1 := ((xI_deriv hl hx).comp r hlin).const_mul (A / q)
  have h2 := ((xK_deriv hl hx).comp r hlin).const_mul (B / q)
  have h := h1.add h2
  have e : (fun s => s * radial l q A B s) =
      (fun s => A / q * ((fun y => y * sphI l y) ∘ fun s => q * s) s) +
        fun s => B / q * ((fun y => y * sphK l y) ∘ fun s => q * s) s := by
    funext s
    simp only [radial, Function.comp, Pi.add_apply]
    field_simp
  rw [e, h.deriv]
  field_simp

/-- the coefficient on the outer side of an interface, from the values of `u` and `(x u)'` on its inner side -/
noncomputable def ampNext (l : ℕ) (a b : Layer) (r t : ℝ) : ℝ :=
  (b.w * (idX l (a.q * r) * sphI l (a.q * r) - t * (kdX l (a.q * r) * sphK l (a.q * r))) -
    a.w * (sphI l (a.q * r) - t * sphK l (a.q * r)) * idX l (b.q * r)) /
  (b.w * (idX l (a.q * r) * sphI l (a.q * r) - t * (kdX l (a.q * r) * sphK l (a.q * r))) -
    a.w * (sphI l (a.q * r) - t * sphK l (a.q * r)) * kdX l (b.q * r)) *
  (sphI l (b.q * r) / sphK l (b.q * r))

theorem idX_pos {l : ℕ} (hl : 1 ≤ l) {x : ℝ} (hx : 0 < x) : 0 < idX l x := by
  have := idX_gt hl hx
  have : (0 : ℝ) ≤ l := by positivity
  linarith

theorem ampNext_den {l : ℕ} (hl : 1 ≤ l) {a b : Layer} (ha : a.Pos) (hb : b.Pos) {r t : ℝ} (hr : 0 < r)
    (h : Grow l (a.q * r) t) :
    0 < b.w * (idX l (a.q * r) * sphI l (a.q * r) - t * (kdX l (a.q * r) * sphK l (a.q * r))) -
      a.w * (sphI l (a.q * r) - t * sphK l (a.q * r)) * kdX l (b.q * r) := by
  have hx : 0 < a.q * r := mul_pos ha.q hr
  have hy : 0 < b.q * r := mul_pos hb.q hr
  have k1 := kdX_neg hl hy
  have k2 := kdX_neg hl hx
  have i2 := idX_pos hl hx
  have hi := sphI_pos l hx
  have hw := ha.w
  have hw' := hb.w
  have p1 : 0 ≤ idX l (a.q * r) * sphI l (a.q * r) - t * (kdX l (a.q * r) * sphK l (a.q * r)) := by linarith [h.2]
  have p0 : 0 ≤ sphI l (a.q * r) - t * sphK l (a.q * r) := by linarith [h.1]
  rcases p0.eq_or_lt with e | e
  · have : 0 < idX l (a.q * r) * sphI l (a.q * r) - t * (kdX l (a.q * r) * sphK l (a.q * r)) := by
      have e' : t * (kdX l (a.q * r) * sphK l (a.q * r)) = kdX l (a.q * r) * sphI l (a.q * r) := by
        linear_combination (kdX l (a.q * r)) * e
      rw [e']
      nlinarith
    rw [← e]
    have := mul_pos hw' this
    linarith
  · have h1 := mul_nonneg hw'.le p1
    have h2 := mul_pos (mul_pos hw e) (neg_pos.2 k1)
    linarith

theorem ampNext_grow {l : ℕ} (hl : 1 ≤ l) {a b : Layer} (ha : a.Pos) (hb : b.Pos) {r t : ℝ} (hr : 0 < r)
    (h : Grow l (a.q * r) t) :
    Grow l (b.q * r) (ampNext l a b r t) := by
  have hD := ampNext_den hl ha hb hr h
  have hx : 0 < a.q * r := mul_pos ha.q hr
  have hy : 0 < b.q * r := mul_pos hb.q hr
  have k1 := kdX_neg hl hy
  have i1 := idX_pos hl hy
  have hi := sphI_pos l hy
  have hk := sphK_pos l hy
  have p1 : 0 ≤ idX l (a.q * r) * sphI l (a.q * r) - t * (kdX l (a.q * r) * sphK l (a.q * r)) := by linarith [h.2]
  have p0 : 0 ≤ sphI l (a.q * r) - t * sphK l (a.q * r) := by linarith [h.1]
  have hw := ha.w
  have hw' := hb.w
  unfold Grow ampNext
  generalize idX l (a.q * r) * sphI l (a.q * r) - t * (kdX l (a.q * r) * sphK l (a.q * r)) = P1 at *
  generalize sphI l (a.q * r) - t * sphK l (a.q * r) = P0 at *
  generalize idX l (b.q * r) = I at *
  generalize kdX l (b.q * r) = K at *
  generalize sphI l (b.q * r) = i at *
  generalize sphK l (b.q * r) = k at *
  constructor
  · have : (b.w * P1 - a.w * P0 * I) / (b.w * P1 - a.w * P0 * K) * (i / k) * k =
        (b.w * P1 - a.w * P0 * I) / (b.w * P1 - a.w * P0 * K) * i := by field_simp
    rw [this]
    have : (b.w * P1 - a.w * P0 * I) / (b.w * P1 - a.w * P0 * K) ≤ 1 := by
      rw [div_le_one hD]
      nlinarith [mul_nonneg (mul_nonneg hw.le p0) (by linarith : 0 ≤ I - K)]
    nlinarith
  · have : (b.w * P1 - a.w * P0 * I) / (b.w * P1 - a.w * P0 * K) * (i / k) * (K * k) =
        (b.w * P1 - a.w * P0 * I) * K / (b.w * P1 - a.w * P0 * K) * i := by field_simp
    rw [this]
    refine mul_le_mul_of_nonneg_right ?_ hi.le
    rw [div_le_iff₀ hD]
    nlinarith [mul_nonneg (mul_nonneg hw'.le p1) (by linarith : 0 ≤ I - K)]

theorem matched_iff {l : ℕ} (hl : 1 ≤ l) {a b : Layer} (ha : a.Pos) (hb : b.Pos) {r : ℝ} (hr : 0 < r) (A B A' B' : ℝ) :
    Matched l a b r A B A' B' ↔
      A * sphI l (a.q * r) + B * sphK l (a.q * r) = A' * sphI l (b.q * r) + B' * sphK l (b.q * r) ∧
      b.w * (A * (idX l (a.q * r) * sphI l (a.q * r)) + B * (kdX l (a.q * r) * sphK l (a.q * r))) =
      a.w * (A' * (idX l (b.q * r) * sphI l (b.q * r)) + B' * (kdX l (b.q * r) * sphK l (b.q * r))) := by
  unfold Matched
  rw [radial_deriv hl ha.q hr, radial_deriv hl hb.q hr, div_eq_div_iff ha.w.ne' hb.w.ne', mul_comm _ b.w, mul_comm _ a.w]
  rfl

theorem matched_amp {l : ℕ} (hl : 1 ≤ l) {a b : Layer} (ha : a.Pos) (hb : b.Pos) {r t : ℝ} (hr : 0 < r)
    (h : Grow l (a.q * r) t) {A A' B' : ℝ} (hm : Matched l a b r A (-t * A) A' B') : B' = -(ampNext l a b r t) * A' := by
  have hD := ampNext_den hl ha hb hr h
  have hy : 0 < b.q * r := mul_pos hb.q hr
  have k1 := kdX_neg hl hy
  have i1 := idX_pos hl hy
  have hi := sphI_pos l hy
  have hk := sphK_pos l hy
  have hw := ha.w
  obtain ⟨e1, e2⟩ := (matched_iff hl ha hb hr _ _ _ _).1 hm
  unfold ampNext
  have f1 : A * (sphI l (a.q * r) - t * sphK l (a.q * r)) = A' * sphI l (b.q * r) + B' * sphK l (b.q * r) := by
    rw [← e1]; ring
  have f2 : b.w * (A * (idX l (a.q * r) * sphI l (a.q * r) - t * (kdX l (a.q * r) * sphK l (a.q * r)))) =
    a.w * (A' * (idX l (b.q * r) * sphI l (b.q * r)) + B' * (kdX l (b.q * r) * sphK l (b.q * r))) := by
    rw [← e2]; ring
  clear e1 e2 hm h
  generalize idX l (a.q * r) * sphI l (a.q * r) - t * (kdX l (a.q * r) * sphK l (a.q * r)) = P1 at *
  generalize sphI l (a.q * r) - t * sphK l (a.q * r) = P0 at *
  generalize idX l (b.q * r) = I at *
  generalize kdX l (b.q * r) = K at *
  generalize sphI l (b.q * r) = i at *
  generalize sphK l (b.q * r) = k at *
  have key : B' * k * (b.w * P1 - a.w * P0 * K) + A' * i * (b.w * P1 - a.w * P0 * I) = 0 := by
    by_cases hA : A = 0
    · subst hA
      have g1 : A' * i + B' * k = 0 := by linarith
      have g2 : A' * (I * i) + B' * (K * k) = 0 := by
        have : a.w * (A' * (I * i) + B' * (K * k)) = 0 := by linarith
        rcases mul_eq_zero.1 this with h | h
        · exact absurd h hw.ne'
        · exact h
      have g3 : A' * i * (I - K) = 0 := by linear_combination g2 - K * g1
      have g4 : A' * i = 0 := by
        rcases mul_eq_zero.1 g3 with h | h
        · exact h
        · linarith
      have g5 : B' * k = 0 := by linarith
      rw [g4, g5]; ring
    · refine (mul_eq_zero.1 (?_ : A * _ = 0)).resolve_left hA
      linear_combination (B' * k + A' * i) * f2 - a.w * (B' * k * K + A' * i * I) * f1
  have hD' := hD.ne'
  rw [show -((b.w * P1 - a.w * P0 * I) / (b.w * P1 - a.w * P0 * K) * (i / k)) * A' =
    -((b.w * P1 - a.w * P0 * I) * i * A') / ((b.w * P1 - a.w * P0 * K) * k) by field_simp, eq_div_iff (by positivity)]
  linear_combination key

theorem matched_exists {l : ℕ} (hl : 1 ≤ l) {a b : Layer} (ha : a.Pos) (hb : b.Pos) {r t : ℝ} (hr : 0 < r)
    (h : Grow l (a.q * r) t) (A' : ℝ) :
    ∃ A, Matched l a b r A (-t * A) A' (-(ampNext l a b r t) * A') := by
  have hD := ampNext_den hl ha hb hr h
  have hy : 0 < b.q * r := mul_pos hb.q hr
  have hk := sphK_pos l hy
  refine ⟨A' * (sphI l (b.q * r) * a.w * (idX l (b.q * r) - kdX l (b.q * r)) /
    (b.w * (idX l (a.q * r) * sphI l (a.q * r) - t * (kdX l (a.q * r) * sphK l (a.q * r))) -
      a.w * (sphI l (a.q * r) - t * sphK l (a.q * r)) * kdX l (b.q * r))), ?_⟩
  rw [matched_iff hl ha hb hr]
  have f1 : ∀ A, A * sphI l (a.q * r) + -t * A * sphK l (a.q * r) = A * (sphI l (a.q * r) - t * sphK l (a.q * r)) := by
    intro A; ring
  have f2 : ∀ A, A * (idX l (a.q * r) * sphI l (a.q * r)) + -t * A * (kdX l (a.q * r) * sphK l (a.q * r)) =
    A * (idX l (a.q * r) * sphI l (a.q * r) - t * (kdX l (a.q * r) * sphK l (a.q * r))) := by
    intro A; ring
  rw [f1, f2]
  unfold ampNext
  clear f1 f2 h
  generalize idX l (a.q * r) * sphI l (a.q * r) - t * (kdX l (a.q * r) * sphK l (a.q * r)) = P1 at *
  generalize sphI l (a.q * r) - t * sphK l (a.q * r) = P0 at *
  generalize idX l (b.q * r) = I at *
  generalize kdX l (b.q * r) = K at *
  generalize sphI l (b.q * r) = i at *
  generalize sphK l (b.q * r) = k at *
  obtain ⟨D, hDe⟩ : ∃ D, D = b.w * P1 - a.w * P0 * K := ⟨_, rfl⟩
  have hD' : D ≠ 0 := by rw [hDe]; exact hD.ne'
  rw [← hDe]
  constructor
  · field_simp
    rw [hDe]; ring
  · field_simp
    rw [hDe]; ring

end CasSph
