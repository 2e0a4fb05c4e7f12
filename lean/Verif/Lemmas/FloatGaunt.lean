import Verif.Model.FloatGaunt
import Verif.Spec.FlGaunt
import Verif.Lemmas.Gaunt
import Verif.Lemmas.FloatTrans
import Mathlib.Analysis.Complex.ExponentialBounds

/-! # Rounding errors of `gaunt` -/

namespace CasSph

open Spec

variable {A : FlZero} {u : ℝ}

theorem quot_of_ne {B : FlMie} {a b : ℝ} (h : b ≠ 0) : B.quot a b = .ok (B.div a b) := by unfold FlMie.quot; rw [if_neg h]

namespace Cl

variable {w X Y x' x y' y : ℝ}

theorem neg (h : Cl w X x' x) : Cl w X (-x') (-x) := ⟨h.1, by rw [abs_neg]; exact h.2.1, by rw [neg_sub_neg, abs_sub_comm]; exact h.2.2⟩

theorem sub (h : Cl w X x' x) (g : Cl w Y y' y) : Cl w (X + Y) (x' - y') (x - y) := by
  rw [sub_eq_add_neg, sub_eq_add_neg]
  exact h.add g.neg

/-- The reciprocal of a number with at most two rounding errors. -/
theorem inv (hu : 0 ≤ u) (hu1 : u ≤ 1 / 100) {b b' : ℝ} (hb : b ≠ 0) (h : |b' - b| ≤ ((1 + u) ^ 2 - 1) * |b|) :
    b' ≠ 0 ∧ Cl ((1 + u) ^ 3) |b|⁻¹ b'⁻¹ b⁻¹ := by
  have bp := abs_pos.mpr hb
  have e1 : (1 + u) ^ 2 - 1 ≤ 201 / 10000 := by nlinarith
  have h1 : |b| - |b'| ≤ |b' - b| := by rw [abs_sub_comm]; exact abs_sub_abs_le_abs_sub b b'
  have h2 : (1 - ((1 + u) ^ 2 - 1)) * |b| ≤ |b'| := by linarith
  have b'p : 0 < |b'| := lt_of_lt_of_le (mul_pos (by linarith) bp) h2
  have hb' := abs_pos.mp b'p
  refine ⟨hb', one_le_pow₀ (by linarith), by rw [abs_inv], ?_⟩
  rw [show b'⁻¹ - b⁻¹ = (b - b') * b'⁻¹ * b⁻¹ by field_simp, abs_mul, abs_inv]
  refine mul_le_mul_of_nonneg_right ?_ (by positivity)
  rw [abs_mul, abs_inv, ← div_eq_mul_inv, div_le_iff₀ b'p, abs_sub_comm]
  refine h.trans ?_
  have h3 : ((1 + u) ^ 3 - 1) * ((1 - ((1 + u) ^ 2 - 1)) * |b|) ≤ ((1 + u) ^ 3 - 1) * |b'| :=
    mul_le_mul_of_nonneg_left h2 (by nlinarith [mul_nonneg hu hu, mul_nonneg hu (mul_nonneg hu hu)])
  refine le_trans ?_ h3
  rw [← mul_assoc]
  refine mul_le_mul_of_nonneg_right ?_ bp.le
  have a : 0 ≤ u * u := mul_nonneg hu hu
  have a3 : 0 ≤ u * (u * u) := mul_nonneg hu a
  have q1 : u * u ≤ u * (1 / 100) := mul_le_mul_of_nonneg_left hu1 hu
  have f1 : 3 * u ≤ (1 + u) ^ 3 - 1 := by nlinarith
  have f2 : (9 : ℝ) / 10 ≤ 1 - ((1 + u) ^ 2 - 1) := by linarith
  have f3 : 3 * u * (9 / 10) ≤ ((1 + u) ^ 3 - 1) * (1 - ((1 + u) ^ 2 - 1)) := mul_le_mul f1 f2 (by norm_num) (by linarith)
  have f4 : (1 + u) ^ 2 - 1 ≤ 3 * u * (9 / 10) := by nlinarith
  linarith

end Cl

/-! ## Factors `(1 + u)^k` -/

theorem Cl.le_pow {X x' x : ℝ} {k n : ℕ} (hu : 0 ≤ u) (h : Cl ((1 + u) ^ k) X x' x) (hk : k ≤ n) : Cl ((1 + u) ^ n) X x' x :=
  h.mono (pow_le_pow_right₀ (by linarith) hk)

theorem flAdd (hA : RelErr A.toFlFun u) {X Y x' x y' y : ℝ} {k j : ℕ} (n : ℕ) (h : Cl ((1 + u) ^ k) X x' x) (g : Cl ((1 + u) ^ j) Y y' y) (hk : k ≤ n) (hj : j ≤ n) :
    Cl ((1 + u) ^ (n + 1)) (X + Y) (A.add x' y') (x + y) := by
  have := ((h.le_pow hA.u0 hk).add (g.le_pow hA.u0 hj)).fl hA.u0 (hA.add _ _)
  rwa [← _root_.pow_succ] at this

theorem flSub (hA : RelErr A.toFlFun u) {X Y x' x y' y : ℝ} {k j : ℕ} (n : ℕ) (h : Cl ((1 + u) ^ k) X x' x) (g : Cl ((1 + u) ^ j) Y y' y) (hk : k ≤ n) (hj : j ≤ n) :
    Cl ((1 + u) ^ (n + 1)) (X + Y) (A.sub x' y') (x - y) := by
  have := ((h.le_pow hA.u0 hk).sub (g.le_pow hA.u0 hj)).fl hA.u0 (hA.sub _ _)
  rwa [← _root_.pow_succ] at this

theorem flMulLeft (hA : RelErr A.toFlFun u) {Y y' y c : ℝ} {j : ℕ} (hc : 0 ≤ c) (g : Cl ((1 + u) ^ j) Y y' y) : Cl ((1 + u) ^ (j + 1)) (c * Y) (A.mul c y') (c * y) := by
  have := ((Cl.self c).mul g).fl hA.u0 (hA.mul _ _)
  rwa [one_mul, ← _root_.pow_succ, abs_of_nonneg hc] at this

theorem lgam_cl (hA : RelErrZ A u) (n : ℕ) : Cl ((1 + u) ^ 1) (Real.log n.factorial) (A.lgam (n + 1)) (Real.log n.factorial) := by
  have h0 : 0 ≤ Real.log (n.factorial : ℝ) := Real.log_nonneg (by exact_mod_cast Nat.one_le_iff_ne_zero.mpr n.factorial_ne_zero)
  have := Cl.of_rel hA.u0 (a := A.lgam (n + 1)) (b := Real.log n.factorial) (by rw [abs_of_nonneg h0]; exact hA.lgam n)
  rwa [abs_of_nonneg h0, ← pow_one (1 + u)] at this

theorem log_cl (hA : RelErr A.toFlFun u) {a : ℝ} (h : 1 ≤ a) : Cl ((1 + u) ^ 1) (Real.log a) (A.log a) (Real.log a) := by
  have h0 := Real.log_nonneg h
  have := Cl.of_rel hA.u0 (hA.log a (by linarith))
  rwa [abs_of_nonneg h0, ← pow_one (1 + u)] at this

theorem logPi_cl (hA : RelErr A.toFlFun u) : Cl ((1 + u) ^ 3) (Real.log (4 * Real.pi)) (A.log (A.mul 4 A.pi)) (Real.log (4 * Real.pi)) := by
  have u0 := hA.u0
  have u1 := hA.u1
  have pp := Real.pi_gt_three
  have z : 0 < 4 * Real.pi := by positivity
  have c1 : Cl (1 + u) Real.pi A.pi Real.pi := ⟨by linarith, by rw [abs_of_pos Real.pi_pos], by rw [add_sub_cancel_left]; exact hA.pi⟩
  have c2 := ((Cl.self 4).mul c1).fl u0 (hA.mul 4 A.pi)
  rw [abs_of_pos (show (0 : ℝ) < 4 by norm_num), one_mul, ← sq] at c2
  set z' := A.mul 4 A.pi
  obtain ⟨d1, d2⟩ := abs_le.mp c2.2.2
  have e1 : (1 + u) ^ 2 - 1 ≤ 21 / 10 * u := by nlinarith
  have e2 : ((1 + u) ^ 2 - 1) * (4 * Real.pi) ≤ 21 / 10 * u * (4 * Real.pi) := mul_le_mul_of_nonneg_right e1 z.le
  have z'p : 0 < z' := by nlinarith
  have l2 : 2 ≤ Real.log (4 * Real.pi) := by
    have h1 : Real.log 8 ≤ Real.log (4 * Real.pi) := Real.log_le_log (by norm_num) (by linarith)
    have h2 : Real.log 8 = 3 * Real.log 2 := by rw [show (8 : ℝ) = 2 ^ 3 by norm_num, Real.log_pow]; norm_num
    have := Real.log_two_gt_d9
    linarith
  have up : Real.log z' - Real.log (4 * Real.pi) ≤ 21 / 10 * u := by
    rw [← Real.log_div z'p.ne' z.ne']
    refine (Real.log_le_sub_one_of_pos (div_pos z'p z)).trans ?_
    rw [sub_le_iff_le_add, div_le_iff₀ z]
    linarith
  have lo : -(3 * u) ≤ Real.log z' - Real.log (4 * Real.pi) := by
    rw [← Real.log_div z'p.ne' z.ne', ← neg_le_neg_iff, neg_neg, ← Real.log_inv, inv_div]
    refine (Real.log_le_sub_one_of_pos (div_pos z z'p)).trans ?_
    rw [sub_le_iff_le_add, div_le_iff₀ z'p]
    have g1 : (1 - 21 / 10 * u) * (4 * Real.pi) ≤ z' := by linarith
    have g2 : (3 * u + 1) * ((1 - 21 / 10 * u) * (4 * Real.pi)) ≤ (3 * u + 1) * z' := mul_le_mul_of_nonneg_left g1 (by linarith)
    have g3 : 1 ≤ (3 * u + 1) * (1 - 21 / 10 * u) := by nlinarith
    nlinarith
  have c3 : Cl ((1 + u) ^ 2) (Real.log (4 * Real.pi)) (Real.log z') (Real.log (4 * Real.pi)) := by
    refine ⟨one_le_pow₀ (by linarith), by rw [abs_of_pos (by linarith)], ?_⟩
    have : 2 * u * 2 ≤ ((1 + u) ^ 2 - 1) * Real.log (4 * Real.pi) := mul_le_mul (by nlinarith) l2 (by norm_num) (by nlinarith)
    rw [abs_le]
    constructor <;> linarith
  have := c3.fl u0 (hA.log z' z'p)
  rwa [← _root_.pow_succ] at this

/-- The logarithm of the top coefficient. -/
theorem lnMax_cl (hA : RelErrZ A u) {l lp : ℕ} {m : ℤ} (hm : m.natAbs ≤ min l lp) :
    Cl ((1 + u) ^ 10) (gauntLogSize l lp m) (A.gauntLnMax l lp m) (gauntLnMax l lp m) := by
  have R := hA.toRelErr
  have i1 : ∀ z : ℤ, 0 ≤ z → ∀ r : ℝ, r = (z : ℝ) + 1 → Cl ((1 + u) ^ 1) (Real.log z.toNat.factorial) (A.lgam r) (lgam r) := fun z hz r hr => by
    have e : r = (z.toNat : ℝ) + 1 := by
      rw [hr]; congr 1
      exact_mod_cast (Int.toNat_of_nonneg hz).symm
    rw [e, lgam_nat]
    exact lgam_cl hA _
  have n1 : ∀ (k : ℕ) (r : ℝ), r = (k : ℝ) + 1 → Cl ((1 + u) ^ 1) (Real.log k.factorial) (A.lgam r) (lgam r) := fun k r hr => by
    rw [hr, lgam_nat]; exact lgam_cl hA _
  have a1 := n1 (2 * l) (2 * l + 1) (by push_cast; ring)
  have a2 := n1 (2 * lp) (2 * lp + 1) (by push_cast; ring)
  have a3 := flMulLeft R (show (0 : ℝ) ≤ 2 by norm_num) (n1 (l + lp) ((l + lp) + 1) (by push_cast; ring))
  have a4 := n1 l (l + 1) rfl
  have a5 := n1 lp (lp + 1) rfl
  have a6 := n1 (2 * (l + lp)) (2 * (l + lp) + 1) (by push_cast; ring)
  have b1 := i1 (l - m) (by omega) (l - m + 1) (by push_cast; ring)
  have b2 := i1 (lp + m) (by omega) (lp + m + 1) (by push_cast; ring)
  have b3 := i1 (l + m) (by omega) (l + m + 1) (by push_cast; ring)
  have b4 := i1 (lp - m) (by omega) (lp - m + 1) (by push_cast; ring)
  have s1 := flAdd R 1 a1 a2 le_rfl le_rfl
  have s2 := flAdd R 2 s1 a3 le_rfl le_rfl
  have s3 := flSub R 3 s2 a4 le_rfl (by norm_num)
  have s4 := flSub R 4 s3 a5 le_rfl (by norm_num)
  have s5 := flSub R 5 s4 a6 le_rfl (by norm_num)
  have s6 := flSub R 6 s5 b1 le_rfl (by norm_num)
  have s7 := flSub R 7 s6 b2 le_rfl (by norm_num)
  have h1 := flAdd R 1 b1 b2 le_rfl le_rfl
  have h2 := flSub R 2 h1 b3 le_rfl (by norm_num)
  have h3 := flSub R 3 h2 b4 le_rfl (by norm_num)
  have h4 := flMulLeft R (show (0 : ℝ) ≤ 0.5 by norm_num) h3
  have q1 := flAdd R 1 (log_cl R (show (1 : ℝ) ≤ 2 * l + 1 by linarith [(Nat.cast_nonneg l : (0 : ℝ) ≤ l)])) (log_cl R (show (1 : ℝ) ≤ 2 * lp + 1 by linarith [(Nat.cast_nonneg lp : (0 : ℝ) ≤ lp)])) le_rfl le_rfl
  have q2 := flSub R 3 q1 (logPi_cl R) (by norm_num) le_rfl
  have q3 := flMulLeft R (show (0 : ℝ) ≤ 0.5 by norm_num) q2
  have f1 := flAdd R 8 s7 h4 le_rfl (by norm_num)
  have f2 := flAdd R 9 f1 q3 le_rfl (by norm_num)
  refine Eq.mp ?_ f2
  unfold gauntLogSize FlZero.gauntLnMax gauntLnMax
  congr 1
  norm_num

/-- The top coefficient. -/
theorem amax_cl (hA : RelErrZ A u) {l lp : ℕ} {m : ℤ} (hm : m.natAbs ≤ min l lp) :
    Cl (Real.exp (((1 + u) ^ 10 - 1) * gauntLogSize l lp m) * (1 + u)) (Real.exp (gauntLnMax l lp m)) (A.exp (A.gauntLnMax l lp m)) (Real.exp (gauntLnMax l lp m)) := by
  have c1 := (Cl.expo (lnMax_cl hA hm).2.2).mul (Cl.self (Real.exp (gauntLnMax l lp m)))
  rw [← Real.exp_add, sub_add_cancel, one_mul, one_mul, mul_one, abs_of_pos (Real.exp_pos _)] at c1
  exact c1.fl hA.u0 (by rw [abs_of_pos (Real.exp_pos _)]; exact hA.exp _)

/-! ## The values computed -/

theorem xuAlpha_eq (l lp : ℕ) (p : ℝ) : xuAlpha l lp p = alphaF l lp p := by unfold xuAlpha alphaF; congr 1 <;> ring

/-- `alphas` as computed. -/
noncomputable def alphaFl (A : FlZero) (l lp : ℕ) (p : ℝ) : ℝ :=
  A.div (A.mul (p * p - ((l : ℝ) + lp + 1) ^ 2) (p * p - ((l : ℝ) - lp) ^ 2)) (4 * p * p - 1)

theorem flAlphas_ok (A : FlZero) (l lp : ℕ) :
    A.gauntAlphas l lp = .ok ((List.range (2 * min l lp)).map fun idx : ℕ => alphaFl A l lp ((idx + lppMin l lp + 1 : ℕ) : ℝ)) := by
  unfold FlZero.gauntAlphas
  have := lppMin_add l lp
  unfold lppMin at this
  simp only [this]
  refine mapM_ok fun idx _ => ?_
  have hp : (0 : ℝ) ≤ (idx : ℝ) + ((l : ℤ) - lp).natAbs := by positivity
  rw [quot_of_ne (by nlinarith)]
  unfold alphaFl lppMin
  push_cast
  rfl

theorem alphaFl_cl (hA : RelErr A.toFlFun u) (l lp : ℕ) {p : ℝ} (hp : 1 ≤ p) : Cl ((1 + u) ^ 2) |alphaF l lp p| (alphaFl A l lp p) (alphaF l lp p) := by
  have u0 := hA.u0
  have d : (4 * p * p - 1) ≠ 0 := by nlinarith
  have c1 := Cl.of_rel u0 (hA.mul (p * p - ((l : ℝ) + lp + 1) ^ 2) (p * p - ((l : ℝ) - lp) ^ 2))
  have c2 := (c1.mul (Cl.self (4 * p * p - 1)⁻¹)).fl u0 (z := alphaFl A l lp p) (by rw [← div_eq_mul_inv]; exact hA.div _ _ d)
  rw [← abs_mul, ← div_eq_mul_inv, mul_one, ← sq] at c2
  exact c2

/-- Unnormalised coefficients as computed, counted from the top. -/
noncomputable def gTopFl (A : FlZero) (l lp : ℕ) (m : ℤ) : ℕ → ℝ
  | 0 => A.exp (A.gauntLnMax l lp m)
  | 1 => A.mul (A.exp (A.gauntLnMax l lp m))
      (A.div (A.mul (2 * ((l + lp : ℕ) : ℝ) - 3) ((l : ℝ) * lp - (m : ℝ) ^ 2 * (2 * ((l + lp : ℕ) : ℝ) - 1)))
        (A.mul (A.mul (2 * (l : ℝ) - 1) (2 * lp - 1)) ((l + lp : ℕ) : ℝ)))
  | j + 2 => A.div (A.sub (A.mul (A.add (A.add (4 * (m : ℝ) * m) (alphaFl A l lp (l + lp - (2 * j + 2)))) (alphaFl A l lp (l + lp - (2 * j + 1)))) (gTopFl A l lp m (j + 1)))
      (A.mul (alphaFl A l lp (l + lp - 2 * j)) (gTopFl A l lp m j))) (alphaFl A l lp (l + lp - (2 * j + 3)))

/-- The divisor `alphas[2*idx]`. -/
theorem alphaFl_inv (hA : RelErr A.toFlFun u) {l lp p : ℕ} (h1 : lppMin l lp < p) (h2 : p ≤ l + lp) :
    alphaFl A l lp (p : ℝ) ≠ 0 ∧ Cl ((1 + u) ^ 3) |alphaF l lp (p : ℝ)|⁻¹ (alphaFl A l lp (p : ℝ))⁻¹ (alphaF l lp (p : ℝ))⁻¹ :=
  Cl.inv hA.u0 hA.u1 (alphaF_ne h1 h2) (alphaFl_cl hA l lp (by exact_mod_cast (by omega : 1 ≤ p))).2.2

theorem flStep_ok (hA : RelErr A.toFlFun u) {l lp : ℕ} {m : ℤ} {j : ℕ} (hj : j + 2 ≤ min l lp) :
    A.gauntStep ((List.range (2 * min l lp)).map fun idx : ℕ => alphaFl A l lp ((idx + lppMin l lp + 1 : ℕ) : ℝ)) m
      ((List.range (j + 2)).reverse.map (gTopFl A l lp m)) (min l lp - (j + 2)) =
      .ok ((List.range (j + 3)).reverse.map (gTopFl A l lp m)) := by
  have hle := lppMin_le l lp
  generalize hd : min l lp = d at *
  obtain ⟨i, rfl⟩ := Nat.exists_eq_add_of_le' hj
  have hi : i + (j + 2) - (j + 2) = i := by omega
  rw [hi]
  have hacc : (List.range (j + 2)).reverse.map (gTopFl A l lp m) =
      gTopFl A l lp m (j + 1) :: gTopFl A l lp m j :: (List.range j).reverse.map (gTopFl A l lp m) := by
    rw [List.range_succ, List.range_succ]; simp
  have hacc3 : (List.range (j + 3)).reverse.map (gTopFl A l lp m) =
      gTopFl A l lp m (j + 2) :: (List.range (j + 2)).reverse.map (gTopFl A l lp m) := by
    rw [List.range_succ]; simp
  have ha : ∀ k, k < 2 * (i + (j + 2)) →
      cget ((List.range (2 * (i + (j + 2)))).map fun idx : ℕ => alphaFl A l lp ((idx + lppMin l lp + 1 : ℕ) : ℝ)) k =
        .ok (alphaFl A l lp ((k + lppMin l lp + 1 : ℕ) : ℝ)) := by
    intro k hk
    refine cget_ok ?_
    rw [List.getElem?_map, List.getElem?_range hk]; rfl
  unfold FlZero.gauntStep
  rw [hacc3, hacc]
  rw [cget_ok (x := gTopFl A l lp m (j + 1)) rfl, ok_bind, cget_ok (x := gTopFl A l lp m j) rfl, ok_bind,
    ha _ (by omega), ok_bind, ha _ (by omega), ok_bind, ha _ (by omega), ok_bind, ha _ (by omega), ok_bind,
    quot_of_ne (alphaFl_inv hA (by omega) (by omega)).1, ok_bind]
  have c : ((l : ℝ) + lp) = (lppMin l lp : ℝ) + 2 * (i + (j + 2)) := by
    have : ((lppMin l lp + 2 * (i + (j + 2)) : ℕ) : ℝ) = ((l + lp : ℕ) : ℝ) := by rw [hle]
    push_cast at this; linarith
  have e1 : ((2 * i + 1 + lppMin l lp + 1 : ℕ) : ℝ) = l + lp - (2 * j + 2) := by push_cast; rw [c]; ring
  have e2 : ((2 * i + 2 + lppMin l lp + 1 : ℕ) : ℝ) = l + lp - (2 * j + 1) := by push_cast; rw [c]; ring
  have e3 : ((2 * i + 3 + lppMin l lp + 1 : ℕ) : ℝ) = l + lp - 2 * j := by push_cast; rw [c]; ring
  have e0 : ((2 * i + lppMin l lp + 1 : ℕ) : ℝ) = l + lp - (2 * j + 3) := by push_cast; rw [c]; ring
  rw [e0, e1, e2, e3]
  rfl

theorem flLoop_ok (hA : RelErr A.toFlFun u) {l lp : ℕ} {m : ℤ} (n : ℕ) : ∀ j, j + 2 + n = min l lp + 1 →
    (List.range n).reverse.foldlM
      (A.gauntStep ((List.range (2 * min l lp)).map fun idx : ℕ => alphaFl A l lp ((idx + lppMin l lp + 1 : ℕ) : ℝ)) m)
      ((List.range (j + 2)).reverse.map (gTopFl A l lp m)) =
      .ok ((List.range (min l lp + 1)).reverse.map (gTopFl A l lp m)) := by
  induction n with
  | zero => intro j hj; rw [← hj]; rfl
  | succ n ih =>
    intro j hj
    rw [List.range_succ (n := n), List.reverse_append, List.reverse_singleton, List.singleton_append, List.foldlM_cons]
    have hn : n = min l lp - (j + 2) := by omega
    have := flStep_ok hA (l := l) (lp := lp) (m := m) (j := j) (by omega)
    rw [← hn] at this
    rw [this, ok_bind]
    exact ih (j + 1) (by omega)

/-- The denominator of the second coefficient. -/
theorem startDen_inv (hA : RelErr A.toFlFun u) {l lp : ℕ} (h1 : 1 ≤ l) (h2 : 1 ≤ lp) :
    A.mul (A.mul (2 * (l : ℝ) - 1) (2 * lp - 1)) ((l + lp : ℕ) : ℝ) ≠ 0 ∧
      Cl ((1 + u) ^ 3) |(2 * (l : ℝ) - 1) * (2 * lp - 1) * ((l + lp : ℕ) : ℝ)|⁻¹ (A.mul (A.mul (2 * (l : ℝ) - 1) (2 * lp - 1)) ((l + lp : ℕ) : ℝ))⁻¹
        ((2 * (l : ℝ) - 1) * (2 * lp - 1) * ((l + lp : ℕ) : ℝ))⁻¹ := by
  have e1 : (1 : ℝ) ≤ l := by exact_mod_cast h1
  have e2 : (1 : ℝ) ≤ lp := by exact_mod_cast h2
  have c := ((Cl.of_rel hA.u0 (hA.mul (2 * (l : ℝ) - 1) (2 * lp - 1))).mul (Cl.self ((l + lp : ℕ) : ℝ))).fl hA.u0 (hA.mul _ _)
  rw [mul_one, ← sq, ← abs_mul] at c
  refine Cl.inv hA.u0 hA.u1 ?_ c.2.2
  push_cast
  exact mul_ne_zero (mul_ne_zero (by linarith) (by linarith)) (by linarith)

theorem flStart_ok (hA : RelErr A.toFlFun u) (l lp : ℕ) (m : ℤ) :
    A.gauntStart l lp m (min l lp + 1) = .ok ((List.range (min 1 (min l lp) + 1)).reverse.map (gTopFl A l lp m)) := by
  unfold FlZero.gauntStart
  by_cases hd : 1 ≤ min l lp
  · rw [if_pos (by omega), quot_of_ne (startDen_inv hA (by omega) (by omega)).1, ok_bind, min_eq_left hd]
    rfl
  · rw [if_neg (by omega), show min 1 (min l lp) = 0 by omega]
    rfl

theorem sqrtDen_inv (hA : RelErrZ A u) (k i : ℕ) :
    A.sqrt (2 * ((k : ℝ) + 2 * i) + 1) ≠ 0 ∧ Cl ((1 + u) ^ 3) (Real.sqrt (2 * ((k : ℝ) + 2 * i) + 1))⁻¹ (A.sqrt (2 * ((k : ℝ) + 2 * i) + 1))⁻¹ (Real.sqrt (2 * ((k : ℝ) + 2 * i) + 1))⁻¹ := by
  have h0 : 0 < 2 * ((k : ℝ) + 2 * i) + 1 := by positivity
  have s0 := Real.sqrt_pos.2 h0
  have u0 := hA.u0
  have h := Cl.inv hA.u0 hA.u1 (b' := A.sqrt (2 * ((k : ℝ) + 2 * i) + 1)) s0.ne' (by
    rw [abs_of_pos s0]
    refine (hA.sqrt _ h0.le).trans (mul_le_mul_of_nonneg_right ?_ s0.le)
    nlinarith)
  rwa [abs_of_pos s0] at h

/-- Element `idx` of the computed result. -/
noncomputable def gntFl (A : FlZero) (l lp : ℕ) (m : ℤ) (idx : ℕ) : ℝ :=
  if m.natAbs > min l lp then 0
  else A.div (gTopFl A l lp m (min l lp - idx)) (A.sqrt (2 * ((lppMin l lp : ℝ) + 2 * idx) + 1))

theorem flGaunt_ok (hA : RelErrZ A u) (l lp : ℕ) (m : ℤ) : A.gaunt l lp m = .ok ((List.range (min l lp + 1)).map (gntFl A l lp m)) := by
  unfold FlZero.gaunt
  have hdim : (l + lp - ((l : ℤ) - lp).natAbs) / 2 + 1 = min l lp + 1 := by
    have := lppMin_add l lp
    unfold lppMin at this
    omega
  simp only [hdim]
  by_cases hm : m.natAbs > min l lp
  · rw [if_pos hm]
    congr 1
    refine (List.eq_replicate_iff.mpr ⟨by simp, fun b hb => ?_⟩).symm
    obtain ⟨i, -, rfl⟩ := List.mem_map.mp hb
    unfold gntFl; rw [if_pos hm]
  have R := hA.toRelErr
  rw [if_neg hm, flAlphas_ok, ok_bind, flStart_ok R, ok_bind]
  have hl : (List.range (min l lp + 1 - 2)).reverse.foldlM
      (A.gauntStep ((List.range (2 * min l lp)).map fun idx : ℕ => alphaFl A l lp ((idx + lppMin l lp + 1 : ℕ) : ℝ)) m)
      ((List.range (min 1 (min l lp) + 1)).reverse.map (gTopFl A l lp m)) =
      .ok ((List.range (min l lp + 1)).reverse.map (gTopFl A l lp m)) := by
    by_cases hd : 1 ≤ min l lp
    · rw [min_eq_left hd]
      exact flLoop_ok R (min l lp + 1 - 2) 0 (by omega)
    · rw [show min 1 (min l lp) = min l lp by omega, show min l lp + 1 - 2 = 0 by omega]
      rfl
  rw [hl, ok_bind]
  have hz : List.zip ((List.range (min l lp + 1)).reverse.map (gTopFl A l lp m)) (List.range (min l lp + 1)) =
      (List.range (min l lp + 1)).map fun idx => (gTopFl A l lp m (min l lp - idx), idx) := by
    refine List.ext_getElem (by simp) ?_
    intro i h1 h2
    simp
  rw [hz]
  rw [mapM_ok (g := fun q : ℝ × ℕ => A.div q.1 (A.sqrt (2 * ((lppMin l lp : ℝ) + 2 * q.2) + 1)))]
  · rw [List.map_map]
    congr 1
    refine List.map_congr_left fun i _ => ?_
    unfold gntFl; rw [if_neg hm]
    rfl
  · intro q _
    unfold FlZero.gauntNorm
    rw [show (((l : ℤ) - lp).natAbs : ℝ) = (lppMin l lp : ℝ) from rfl, quot_of_ne (sqrtDen_inv hA _ _).1]

/-! ## Errors -/

theorem flDiv (hA : RelErr A.toFlFun u) {w v X Y x' x y' y : ℝ} (hy : y' ≠ 0) (h : Cl w X x' x) (g : Cl v Y y'⁻¹ y⁻¹) : Cl (w * v * (1 + u)) (X * Y) (A.div x' y') (x / y) := by
  have := (h.mul g).fl hA.u0 (z := A.div x' y') (by rw [← div_eq_mul_inv]; exact hA.div _ _ hy)
  rwa [← div_eq_mul_inv] at this

theorem gTop_cl (hA : RelErrZ A u) {l lp : ℕ} {m : ℤ} (hm : m.natAbs ≤ min l lp) : ∀ j ≤ min l lp,
    Cl (Real.exp (((1 + u) ^ 10 - 1) * gauntLogSize l lp m) * (1 + u) * (1 + u) ^ (10 * j)) (Real.exp (gauntLnMax l lp m) * gauntMajor l lp m j) (gTopFl A l lp m j) (gTop l lp m j) := by
  have R := hA.toRelErr
  have u0 := hA.u0
  have hle := lppMin_le l lp
  have top := amax_cl hA hm
  set E := Real.exp (((1 + u) ^ 10 - 1) * gauntLogSize l lp m) * (1 + u) with hE
  set a := Real.exp (gauntLnMax l lp m) with ha
  have E0 : 0 ≤ E := by linarith [top.1]
  intro j
  induction j using Nat.twoStepInduction with
  | zero => intro _; simpa [gauntMajor, gTopFl, gTop] using top
  | one =>
    intro h1
    obtain ⟨d0, d⟩ := startDen_inv R (l := l) (lp := lp) (by omega) (by omega)
    have c1 := Cl.of_rel u0 (hA.mul (2 * ((l + lp : ℕ) : ℝ) - 3) ((l : ℝ) * lp - (m : ℝ) ^ 2 * (2 * ((l + lp : ℕ) : ℝ) - 1)))
    have c2 := flDiv R d0 c1 d
    have c3 := (top.mul c2).fl u0 (hA.mul _ _)
    have c4 := c3.mono (v := E * (1 + u) ^ (10 * 1)) (by
      rw [show E * ((1 + u) * (1 + u) ^ 3 * (1 + u)) * (1 + u) = E * (1 + u) ^ 6 by ring]
      exact mul_le_mul_of_nonneg_left (pow_le_pow_right₀ (by linarith) (by norm_num)) E0)
    refine Eq.mp ?_ c4
    congr 1
    simp only [gauntMajor]
    rw [← div_eq_mul_inv, ← abs_div]
    push_cast
    rfl
  | more j ih1 ih2 =>
    intro hj
    have g2 := ih1 (by omega)
    have g1 := ih2 (by omega)
    have hc : ∀ k : ℕ, k ≤ l + lp → ((l + lp - k : ℕ) : ℝ) = l + lp - k := fun k hk => by rw [Nat.cast_sub hk]; push_cast; ring
    have p1 : ∀ k : ℕ, k < l + lp → (1 : ℝ) ≤ l + lp - k := fun k hk => by rw [← hc k hk.le]; exact_mod_cast (by omega : 1 ≤ l + lp - k)
    have x1 := alphaFl_cl R l lp (p := l + lp - (2 * j + 2)) (by have := p1 (2 * j + 2) (by omega); push_cast at this; exact this)
    have x2 := alphaFl_cl R l lp (p := l + lp - (2 * j + 1)) (by have := p1 (2 * j + 1) (by omega); push_cast at this; exact this)
    have x3 := alphaFl_cl R l lp (p := l + lp - 2 * j) (by have := p1 (2 * j) (by omega); push_cast at this; exact this)
    obtain ⟨y0, x0⟩ := alphaFl_inv R (l := l) (lp := lp) (p := l + lp - (2 * j + 3)) (by omega) (by omega)
    rw [hc _ (by omega)] at y0 x0
    push_cast at y0 x0
    have f : Cl ((1 + u) ^ 0) (4 * (m : ℝ) ^ 2) (4 * (m : ℝ) * m) (4 * (m : ℝ) * m) := by
      refine ⟨by simp, ?_, by simp⟩
      rw [abs_of_nonneg (show (0 : ℝ) ≤ 4 * m * m by nlinarith [mul_self_nonneg (m : ℝ)])]
      exact le_of_eq (by ring)
    have s1 := flAdd R 2 f x1 (by norm_num) le_rfl
    have s2 := flAdd R 3 s1 x2 le_rfl (by norm_num)
    have t1 := (s2.mul g1).fl u0 (hA.mul _ _)
    have t2 := (x3.mul g2).fl u0 (hA.mul _ _)
    have t1' := t1.mono (v := E * (1 + u) ^ (10 * j + 15)) (le_of_eq (by ring))
    have t2' := t2.mono (v := E * (1 + u) ^ (10 * j + 15)) (by
      rw [show (1 + u) ^ 2 * (E * (1 + u) ^ (10 * j)) * (1 + u) = E * (1 + u) ^ (10 * j + 3) by ring]
      exact mul_le_mul_of_nonneg_left (pow_le_pow_right₀ (by linarith) (by omega)) E0)
    have t3 := (t1'.sub t2').fl u0 (hA.sub _ _)
    have t4 := flDiv R y0 t3 x0
    have t5 := t4.mono (v := E * (1 + u) ^ (10 * (j + 2))) (le_of_eq (by ring))
    refine Eq.mp ?_ t5
    congr 1
    simp only [gauntMajor, xuAlpha_eq]
    rw [div_eq_mul_inv]
    ring

theorem gauntMajor_nonneg (l lp : ℕ) (m : ℤ) (j : ℕ) : 0 ≤ gauntMajor l lp m j := by
  induction j using Nat.twoStepInduction with
  | zero => simp [gauntMajor]
  | one => simp only [gauntMajor]; positivity
  | more j i1 i2 => simp only [gauntMajor]; positivity

end CasSph
