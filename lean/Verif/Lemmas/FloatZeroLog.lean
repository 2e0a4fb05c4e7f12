import Verif.Spec.FlZero
import Verif.Lemmas.Gaunt
import Verif.Lemmas.FloatBlocks
import Mathlib.Analysis.SpecialFunctions.Log.Basic
import Mathlib.Data.Nat.Factorial.BigOperators

/-! Rounding errors of the logarithms at zero frequency. -/

namespace CasSph

open Spec

/-- `x` is at most `β G`, and `x'` differs from `x` by at most `ε u G`. -/
def Ae (u G β ε x' x : ℝ) : Prop := |x| ≤ β * G ∧ |x' - x| ≤ ε * (u * G)

namespace Ae

variable {u G β β' ε ε' x' x y' y z : ℝ}

theorem mono (h : Ae u G β ε x' x) (hu : 0 ≤ u) (hG : 0 ≤ G) (h1 : β ≤ β') (h2 : ε ≤ ε') : Ae u G β' ε' x' x :=
  ⟨h.1.trans (mul_le_mul_of_nonneg_right h1 hG), h.2.trans (mul_le_mul_of_nonneg_right h2 (mul_nonneg hu hG))⟩

theorem neg (h : Ae u G β ε x' x) : Ae u G β ε (-x') (-x) :=
  ⟨by rw [abs_neg]; exact h.1, by rw [show -x' - -x = -(x' - x) by ring, abs_neg]; exact h.2⟩

theorem fl (h : Ae u G β ε x' x) (hu : 0 ≤ u) (hu1 : u ≤ 1 / 100) (hG : 0 ≤ G) (hε : 0 ≤ ε) (hz : |z - x'| ≤ u * |x'|) :
    Ae u G β (1.01 * ε + β) z x := by
  refine ⟨h.1, ?_⟩
  have uG := mul_nonneg hu hG
  have a := abs_add_le (z - x') (x' - x)
  rw [sub_add_sub_cancel] at a
  have b : |x'| ≤ β * G + ε * (u * G) := by
    have := abs_sub_abs_le_abs_sub x' x
    linarith [h.1, h.2]
  have c := mul_le_mul_of_nonneg_left b hu
  have d : u * (ε * (u * G)) ≤ 1 / 100 * (ε * (u * G)) := mul_le_mul_of_nonneg_right hu1 (mul_nonneg hε uG)
  have e : u * (β * G) = β * (u * G) := by ring
  have f := h.2
  norm_num at *
  linarith

theorem add (h : Ae u G β ε x' x) (g : Ae u G β' ε' y' y) (hu : 0 ≤ u) (hu1 : u ≤ 1 / 100) (hG : 0 ≤ G) (hε : 0 ≤ ε) (hε' : 0 ≤ ε')
    (hz : |z - (x' + y')| ≤ u * |x' + y'|) : Ae u G (β + β') (1.01 * (ε + ε') + (β + β')) z (x + y) := by
  refine fl (x' := x' + y') ⟨?_, ?_⟩ hu hu1 hG (by linarith) hz
  · rw [add_mul]; exact (abs_add_le _ _).trans (add_le_add h.1 g.1)
  · rw [show x' + y' - (x + y) = (x' - x) + (y' - y) by ring, add_mul]
    exact (abs_add_le _ _).trans (add_le_add h.2 g.2)

theorem sub (h : Ae u G β ε x' x) (g : Ae u G β' ε' y' y) (hu : 0 ≤ u) (hu1 : u ≤ 1 / 100) (hG : 0 ≤ G) (hε : 0 ≤ ε) (hε' : 0 ≤ ε')
    (hz : |z - (x' - y')| ≤ u * |x' - y'|) : Ae u G (β + β') (1.01 * (ε + ε') + (β + β')) z (x - y) := by
  rw [sub_eq_add_neg] at hz ⊢
  exact h.add g.neg hu hu1 hG hε hε' hz

theorem smul {c : ℝ} (hc : 0 ≤ c) (h : Ae u G β ε x' x) (hu : 0 ≤ u) (hu1 : u ≤ 1 / 100) (hG : 0 ≤ G) (hε : 0 ≤ ε)
    (hz : |z - c * x'| ≤ u * |c * x'|) : Ae u G (c * β) (1.01 * (c * ε) + c * β) z (c * x) := by
  refine fl (x' := c * x') ⟨?_, ?_⟩ hu hu1 hG (by positivity) hz
  · rw [abs_mul, abs_of_nonneg hc, mul_assoc]; exact mul_le_mul_of_nonneg_left h.1 hc
  · rw [← mul_sub, abs_mul, abs_of_nonneg hc, mul_assoc]; exact mul_le_mul_of_nonneg_left h.2 hc

end Ae

variable {A : FlZero} {u G : ℝ} {N : ℕ}

/-- `G` bounds the logarithms of all factorials up to `2 N + 2`. -/
def Big (G : ℝ) (N : ℕ) : Prop := (2 * N + 2) * Real.log (2 * N + 2) ≤ G

theorem Big.nonneg (h : Big G N) : 0 ≤ G :=
  (mul_nonneg (by positivity) (Real.log_nonneg (by have : (0 : ℝ) ≤ N := Nat.cast_nonneg _; linarith))).trans h

theorem Big.fac (h : Big G N) {n : ℕ} (hn : n ≤ 2 * N + 2) : 0 ≤ Real.log n.factorial ∧ Real.log n.factorial ≤ G := by
  refine ⟨Real.log_nonneg (by exact_mod_cast n.factorial_pos), le_trans ?_ h⟩
  have a : (n.factorial : ℝ) ≤ (2 * N + 2) ^ (2 * N + 2) := by
    have h1 := (Nat.factorial_le hn).trans (Nat.factorial_le_pow (2 * N + 2))
    exact_mod_cast h1
  have := Real.log_le_log (by exact_mod_cast n.factorial_pos) a
  rw [Real.log_pow] at this
  push_cast at this
  exact this

theorem Big.log (h : Big G N) {x : ℝ} (h1 : 1 ≤ x) (hx : x ≤ (2 * N + 2) ^ 2) : 0 ≤ Real.log x ∧ Real.log x ≤ G := by
  refine ⟨Real.log_nonneg h1, le_trans ?_ h⟩
  have := Real.log_le_log (by linarith) hx
  rw [Real.log_pow] at this
  push_cast at this
  refine this.trans (mul_le_mul_of_nonneg_right ?_ (Real.log_nonneg ?_)) <;> linarith [(Nat.cast_nonneg N : (0 : ℝ) ≤ N)]

theorem Big.aeLog (h : Big G N) (hA : RelErrZ A u) {x : ℝ} (h1 : 1 ≤ x) (hx : x ≤ (2 * N + 2) ^ 2) : Ae u G 1 1 (A.log x) (Real.log x) := by
  obtain ⟨a, b⟩ := h.log h1 hx
  have := hA.log x (by linarith)
  rw [abs_of_nonneg a] at this
  refine ⟨by rw [abs_of_nonneg a, one_mul]; exact b, by rw [one_mul]; exact this.trans (mul_le_mul_of_nonneg_left b hA.u0)⟩

theorem Big.aeFac (h : Big G N) (hA : RelErrZ A u) {x : ℝ} {n : ℕ} (hx : x = n) (hn : n ≤ 2 * N + 2) :
    Ae u G 1 1 (A.lfac x) (lgam (x + 1)) := by
  obtain ⟨a, b⟩ := h.fac hn
  subst hx
  rw [lgam_nat]
  unfold FlZero.lfac
  refine ⟨by rw [abs_of_nonneg a, one_mul]; exact b, by rw [one_mul]; exact (hA.lgam n).trans (mul_le_mul_of_nonneg_left b hA.u0)⟩

theorem Big.aeDbl (h : Big G N) (hA : RelErrZ A u) {x : ℝ} {n : ℕ} (hx : x = n) (hn : n ≤ N) :
    Ae u G 3 9.4 (A.ln2dbl x) (lgam (2 * x + 1) - x * Real.log 2 - lgam (x + 1)) := by
  have hu := hA.u0
  have hu1 := hA.u1
  have hG := h.nonneg
  have a1 := h.aeFac hA (x := 2 * x) (n := 2 * n) (by rw [hx]; push_cast; ring) (by omega)
  have a2 := h.aeFac hA (x := x) (n := n) hx (by omega)
  have x0 : 0 ≤ x := by rw [hx]; positivity
  have l2 : 0 ≤ Real.log 2 := Real.log_nonneg (by norm_num)
  have b : x * Real.log 2 ≤ G := by
    refine le_trans (mul_le_mul ?_ (Real.log_le_log (by norm_num) ?_) l2 (by positivity)) h
    · have : (n : ℝ) ≤ N := by exact_mod_cast hn
      rw [hx]; linarith
    · linarith [(Nat.cast_nonneg N : (0 : ℝ) ≤ N)]
  have c : Ae u G 1 1 (x * A.log 2) (x * Real.log 2) := by
    have := hA.log 2 (by norm_num)
    rw [abs_of_nonneg l2] at this
    refine ⟨by rw [abs_of_nonneg (by positivity), one_mul]; exact b, ?_⟩
    rw [← mul_sub, abs_mul, abs_of_nonneg x0, one_mul]
    calc x * |A.log 2 - Real.log 2| ≤ x * (u * Real.log 2) := mul_le_mul_of_nonneg_left this x0
      _ = u * (x * Real.log 2) := by ring
      _ ≤ _ := mul_le_mul_of_nonneg_left b hu
  have c' := c.fl hu hu1 hG (by norm_num) (hA.mul x (A.log 2))
  have d := (a1.sub c' hu hu1 hG (by norm_num) (by norm_num) (hA.sub _ _)).sub a2 hu hu1 hG (by norm_num) (by norm_num) (hA.sub _ _)
  exact d.mono hu hG (by norm_num) (by norm_num)

/-- Translation coefficients. -/
theorem Big.aeTrans (h : Big G N) (hA : RelErrZ A u) {m a b : ℕ} (ha : 1 ≤ a) (hb : 1 ≤ b) (hma : m ≤ a) (hmb : m ≤ b) (hN : a + b ≤ N) :
    Ae u G 17 110 (A.transK0Ext m a b).2 (transK0Ext m a b).2 := by
  have hu := hA.u0
  have hu1 := hA.u1
  have hG := h.nonneg
  have a0 : (1 : ℝ) ≤ a := by exact_mod_cast ha
  have b0 : (1 : ℝ) ≤ b := by exact_mod_cast hb
  have n0 : (a : ℝ) + b ≤ N := by exact_mod_cast hN
  have lg : ∀ {x : ℝ}, 1 ≤ x → x ≤ 2 * (a + b) + 1 → Ae u G 1 1 (A.log x) (Real.log x) := fun h1 h2 => h.aeLog hA h1 (by nlinarith)
  have l1 := lg (x := 2 * a + 1) (by linarith) (by linarith)
  have l2 := lg (x := 2 * b + 1) (by linarith) (by linarith)
  have l3 := h.aeLog hA (x := a * (a + 1)) (by nlinarith) (by nlinarith)
  have l4 := h.aeLog hA (x := b * (b + 1)) (by nlinarith) (by nlinarith)
  have l5 := lg (x := 2 * a + 2 * b + 1) (by linarith) (by linarith)
  have l6 := lg (x := a) a0 (by linarith)
  have l7 := lg (x := b) b0 (by linarith)
  have f1 := h.aeFac hA (x := a + b) (n := a + b) (by push_cast; ring) (by omega)
  have f2 := h.aeFac hA (x := 2 * b) (n := 2 * b) (by push_cast; ring) (by omega)
  have f3 := h.aeFac hA (x := 2 * a) (n := 2 * a) (by push_cast; ring) (by omega)
  have f4 := h.aeDbl hA (x := a + b) (n := a + b) (by push_cast; ring) hN
  have f5 := h.aeFac hA (x := a - (m : ℤ)) (n := a - m) (by push_cast [Nat.cast_sub hma]; ring) (by omega)
  have f6 := h.aeFac hA (x := b - (m : ℤ)) (n := b - m) (by push_cast [Nat.cast_sub hmb]; ring) (by omega)
  have f7 := h.aeFac hA (x := a + (m : ℤ)) (n := a + m) (by push_cast; ring) (by omega)
  have f8 := h.aeFac hA (x := b + (m : ℤ)) (n := b + m) (by push_cast; ring) (by omega)
  have f9 := h.aeFac hA (x := 2 * a + 2 * b + 1) (n := 2 * a + 2 * b + 1) (by push_cast; ring) (by omega)
  have f10 := h.aeFac hA (x := a) (n := a) rfl (by omega)
  have f11 := h.aeFac hA (x := b) (n := b) rfl (by omega)
  have z1 := (((((l1.add l2 hu hu1 hG (by norm_num) (by norm_num) (hA.add _ _)).sub (l3.add l4 hu hu1 hG (by norm_num) (by norm_num) (hA.add _ _))
    hu hu1 hG (by norm_num) (by norm_num) (hA.sub _ _)).smul (c := 0.5) (by norm_num) hu hu1 hG (by norm_num) (hA.mul _ _)).add l5
    hu hu1 hG (by norm_num) (by norm_num) (hA.add _ _)).add l6 hu hu1 hG (by norm_num) (by norm_num) (hA.add _ _)).add l7
    hu hu1 hG (by norm_num) (by norm_num) (hA.add _ _)
  have z2 := (((f1.smul (c := 2) (by norm_num) hu hu1 hG (by norm_num) (hA.mul _ _)).add f2 hu hu1 hG (by norm_num) (by norm_num) (hA.add _ _)).add f3
    hu hu1 hG (by norm_num) (by norm_num) (hA.add _ _)).add f4 hu hu1 hG (by norm_num) (by norm_num) (hA.add _ _)
  have z3 := ((((((f5.add f6 hu hu1 hG (by norm_num) (by norm_num) (hA.add _ _)).add f7 hu hu1 hG (by norm_num) (by norm_num) (hA.add _ _)).add f8
    hu hu1 hG (by norm_num) (by norm_num) (hA.add _ _)).smul (c := 0.5) (by norm_num) hu hu1 hG (by norm_num) (hA.mul _ _)).add f9
    hu hu1 hG (by norm_num) (by norm_num) (hA.add _ _)).add f10 hu hu1 hG (by norm_num) (by norm_num) (hA.add _ _)).add f11
    hu hu1 hG (by norm_num) (by norm_num) (hA.add _ _)
  have z := (z1.add z2 hu hu1 hG (by norm_num) (by norm_num) (hA.add _ _)).sub z3 hu hu1 hG (by norm_num) (by norm_num) (hA.sub _ _)
  exact z.mono hu hG (by norm_num) (by norm_num)

/-- The logarithm common to the static Mie coefficients. -/
theorem Big.aeMie (h : Big G N) (hA : RelErrZ A u) {l : ℕ} (hl : l ≤ N) :
    Ae u G 7 35 (A.sub (-A.log (2 * l + 1)) (A.mul 2 (A.ln2dbl l))) (-Real.log (2 * l + 1) - 2 * ln2dbl l) := by
  have hu := hA.u0
  have hu1 := hA.u1
  have hG := h.nonneg
  have l0 : (0 : ℝ) ≤ l := Nat.cast_nonneg _
  have n0 : (l : ℝ) ≤ N := by exact_mod_cast hl
  have a := (h.aeLog hA (x := 2 * l + 1) (by linarith) (by nlinarith)).neg
  have b := (h.aeDbl hA (x := l) (n := l) rfl hl).smul (c := 2) (by norm_num) hu hu1 hG (by norm_num) (hA.mul _ _)
  exact (a.sub b hu hu1 hG (by norm_num) (by norm_num) (hA.sub _ _)).mono hu hG (by norm_num) (by norm_num)

/-- The logarithm of a ratio of lengths. -/
theorem ratio_err (hA : RelErrZ A u) {r L : ℝ} (hr : 0 < r) (hL : r < L) :
    |Real.log (r / L)| = Real.log (L / r) ∧ 0 ≤ Real.log (L / r) ∧ |A.log (A.div r L) - Real.log (r / L)| ≤ 1.04 * (u * (1 + Real.log (L / r))) := by
  have hu := hA.u0
  have hu1 := hA.u1
  have L0 : 0 < L := hr.trans hL
  have q0 : 0 < r / L := by positivity
  have e1 : Real.log (r / L) = -Real.log (L / r) := by rw [← Real.log_inv, inv_div]
  have p0 : 0 ≤ Real.log (L / r) := Real.log_nonneg (by rw [le_div_iff₀ hr]; linarith)
  have e2 : |Real.log (r / L)| = Real.log (L / r) := by rw [e1, abs_neg, abs_of_nonneg p0]
  refine ⟨e2, p0, ?_⟩
  have d := hA.div r L L0.ne'
  rw [abs_of_pos q0, abs_le] at d
  have d1 : (1 - u) * (r / L) ≤ A.div r L := by linarith [d.1]
  have d2 : A.div r L ≤ (1 + u) * (r / L) := by linarith [d.2]
  have D0 : 0 < A.div r L := lt_of_lt_of_le (mul_pos (by linarith) q0) d1
  have g1 : Real.log (A.div r L) - Real.log (r / L) ≤ u := by
    have := Real.log_le_log D0 d2
    rw [Real.log_mul (by positivity) q0.ne'] at this
    have := Real.log_le_sub_one_of_pos (show 0 < 1 + u by linarith)
    linarith
  have g2 : -(1.011 * u) ≤ Real.log (A.div r L) - Real.log (r / L) := by
    have h1 := Real.log_le_log (by positivity [show 0 < 1 - u by linarith]) d1
    rw [Real.log_mul (by linarith) q0.ne'] at h1
    have h2 := Real.one_sub_inv_le_log_of_pos (show 0 < 1 - u by linarith)
    have h3 : (1 - u)⁻¹ ≤ 1 + 1.011 * u := by
      rw [inv_le_iff_one_le_mul₀ (by linarith)]
      nlinarith
    linarith
  have g : |Real.log (A.div r L) - Real.log (r / L)| ≤ 1.011 * u := by
    rw [abs_le]; constructor <;> linarith
  have l := hA.log _ D0
  have k : |Real.log (A.div r L)| ≤ Real.log (L / r) + 1.011 * u := by
    have := abs_sub_abs_le_abs_sub (Real.log (A.div r L)) (Real.log (r / L))
    rw [e2] at this; linarith
  have m := mul_le_mul_of_nonneg_left k hu
  have a := abs_add_le (A.log (A.div r L) - Real.log (A.div r L)) (Real.log (A.div r L) - Real.log (r / L))
  rw [sub_add_sub_cancel] at a
  have uu : u * (1.011 * u) ≤ 1 / 100 * (1.011 * u) := mul_le_mul_of_nonneg_right hu1 (by linarith)
  have up := mul_nonneg hu p0
  norm_num at *
  linarith

/-- The part that depends on the lengths. -/
theorem aeDist (hA : RelErrZ A u) {r1 r2 L : ℝ} (h1 : 0 < r1) (h2 : 0 < r2) (hs : r1 + r2 < L) {a b s : ℕ} (hab : a + b + 1 ≤ 2 * N + 2) (hsN : 2 * s + 1 ≤ 2 * N + 2)
    (hG : (2 * N + 2) * (1 + Real.log (L / r1) + Real.log (L / r2)) ≤ G) :
    Ae u G 2 6.4 (A.distance r1 r2 L a b s) ((a + b + 1) * Real.log (r1 / L) + (2 * s + 1) * Real.log (r2 / L)) := by
  have hu := hA.u0
  have hu1 := hA.u1
  obtain ⟨p1, p2, p3⟩ := ratio_err hA h1 (L := L) (by linarith)
  obtain ⟨q1, q2, q3⟩ := ratio_err hA h2 (L := L) (by linarith)
  have N0 : (0 : ℝ) ≤ N := Nat.cast_nonneg _
  have G0 : 0 ≤ G := le_trans (by positivity) hG
  have key : ∀ {c x' x t : ℝ}, 0 ≤ c → c ≤ 2 * N + 2 → 0 ≤ t → (2 * N + 2) * (1 + t) ≤ G → |x| = t → |x' - x| ≤ 1.04 * (u * (1 + t)) → Ae u G 1 1.04 (c * x') (c * x) := by
    intro c x' x t c0 c1 t0 tG e1 e2
    have cG : c * (1 + t) ≤ G := (mul_le_mul_of_nonneg_right c1 (by linarith)).trans tG
    refine ⟨?_, ?_⟩
    · rw [abs_mul, abs_of_nonneg c0, e1]; linarith
    · rw [← mul_sub, abs_mul, abs_of_nonneg c0]
      calc c * |x' - x| ≤ c * (1.04 * (u * (1 + t))) := mul_le_mul_of_nonneg_left e2 c0
        _ = 1.04 * (u * (c * (1 + t))) := by ring
        _ ≤ _ := mul_le_mul_of_nonneg_left (mul_le_mul_of_nonneg_left cG hu) (by norm_num)
  have k1 := key (c := a + b + 1) (by positivity) (by exact_mod_cast hab) p2 (le_trans (mul_le_mul_of_nonneg_left (by linarith) (by positivity)) hG) p1 p3
  have k2 := key (c := 2 * s + 1) (by positivity) (by exact_mod_cast hsN) q2 (le_trans (mul_le_mul_of_nonneg_left (by linarith) (by positivity)) hG) q1 q3
  have := (k1.fl hu hu1 G0 (by norm_num) (hA.mul _ _)).add (k2.fl hu hu1 G0 (by norm_num) (hA.mul _ _)) hu hu1 G0 (by norm_num) (by norm_num) (hA.add _ _)
  exact this.mono hu G0 (by norm_num) (by norm_num)

end CasSph
