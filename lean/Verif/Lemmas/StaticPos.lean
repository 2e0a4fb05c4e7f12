import Verif.Lemmas.SchurTest
import Verif.Props.ZeroFreqLimit
import Mathlib.Analysis.SpecificLimits.Normed
import Mathlib.Data.Nat.Choose.Central

/-! # Sign and size of the static round-trip determinants of two separate spheres -/

namespace CasSph

open Spec Filter Topology Nat Matrix

/-! ## The binomial array -/

/-- `C(a+b, a) x^(a+1/2) y^(b+1/2)` -/
noncomputable def binomArr (x y : ℝ) (a b : ℕ) : ℝ := ((a + b).choose a : ℝ) * x ^ a * y ^ b * (Real.sqrt x * Real.sqrt y)

theorem binomArr_swap (x y : ℝ) (a b : ℕ) : binomArr x y a b = binomArr y x b a := by
  unfold binomArr
  rw [Nat.add_comm b a, show ((a + b).choose b) = (a + b).choose a from (Nat.choose_symm_add).symm]
  ring

theorem binom_row {y : ℝ} (hy : 0 ≤ y) (hy1 : y < 1) (a l0 p : ℕ) :
    ∑ s : Fin p, ((a + (l0 + s.1)).choose a : ℝ) * y ^ (l0 + s.1) ≤ 1 / (1 - y) ^ (a + 1) := by
  have hs := hasSum_choose_mul_geometric_of_norm_lt_one a (r := y) (by rwa [Real.norm_of_nonneg hy])
  rw [Fin.sum_univ_eq_sum_range (fun s => ((a + (l0 + s)).choose a : ℝ) * y ^ (l0 + s)) p]
  have h1 : ∑ s ∈ Finset.range p, ((a + (l0 + s)).choose a : ℝ) * y ^ (l0 + s) ≤
      ∑ b ∈ Finset.range (l0 + p), ((b + a).choose a : ℝ) * y ^ b := by
    rw [Finset.sum_range_add]
    have : 0 ≤ ∑ b ∈ Finset.range l0, ((b + a).choose a : ℝ) * y ^ b := Finset.sum_nonneg fun b _ => by positivity
    simp only [Nat.add_comm a]
    linarith
  exact h1.trans (sum_le_hasSum _ (fun b _ => by positivity) hs)

theorem binomArr_row {x y : ℝ} (hx : 0 < x) (hy : 0 < y) (hxy : x + y < 1) (a l0 p : ℕ) :
    ∑ s : Fin p, binomArr x y a (l0 + s.1) * Real.sqrt y ≤ y / (1 - y) * Real.sqrt x := by
  have hy1 : 0 < 1 - y := by linarith
  have h := binom_row hy.le (by linarith) a l0 p
  have e : ∑ s : Fin p, binomArr x y a (l0 + s.1) * Real.sqrt y =
      x ^ a * y * Real.sqrt x * ∑ s : Fin p, ((a + (l0 + s.1)).choose a : ℝ) * y ^ (l0 + s.1) := by
    rw [Finset.mul_sum]
    refine Finset.sum_congr rfl fun s _ => ?_
    unfold binomArr
    have := Real.mul_self_sqrt hy.le
    linear_combination ((a + (l0 + s.1)).choose a : ℝ) * x ^ a * y ^ (l0 + s.1) * Real.sqrt x * this
  rw [e]
  have h1 : x ^ a * y * Real.sqrt x * (1 / (1 - y) ^ (a + 1)) = (x / (1 - y)) ^ a * (y / (1 - y) * Real.sqrt x) := by
    rw [div_pow, pow_succ]; field_simp
  have h2 : (x / (1 - y)) ^ a ≤ 1 := pow_le_one₀ (by positivity) (by rw [div_le_one hy1]; linarith)
  calc _ ≤ x ^ a * y * Real.sqrt x * (1 / (1 - y) ^ (a + 1)) := mul_le_mul_of_nonneg_left h (by positivity)
    _ = _ := h1
    _ ≤ 1 * (y / (1 - y) * Real.sqrt x) := mul_le_mul_of_nonneg_right h2 (by positivity)
    _ = _ := one_mul _

theorem binomArr_col {x y : ℝ} (hx : 0 < x) (hy : 0 < y) (hxy : x + y < 1) (b l0 n : ℕ) :
    ∑ i : Fin n, binomArr x y (l0 + i.1) b * Real.sqrt x ≤ x / (1 - x) * Real.sqrt y := by
  simp only [binomArr_swap x y]
  exact binomArr_row hy hx (by linarith) b l0 n

/-- The contraction constant. -/
noncomputable def thetaXY (x y : ℝ) : ℝ := y / (1 - y) * (x / (1 - x))

theorem thetaXY_lt {x y : ℝ} (hx : 0 < x) (hy : 0 < y) (hxy : x + y < 1) : 0 ≤ thetaXY x y ∧ thetaXY x y < 1 ∧
    1 - thetaXY x y = (1 - x - y) / ((1 - x) * (1 - y)) := by
  have h1 : 0 < 1 - x := by linarith
  have h2 : 0 < 1 - y := by linarith
  have e : 1 - thetaXY x y = (1 - x - y) / ((1 - x) * (1 - y)) := by unfold thetaXY; field_simp; ring
  have : 0 < (1 - x - y) / ((1 - x) * (1 - y)) := div_pos (by linarith) (by positivity)
  refine ⟨?_, by linarith, e⟩
  unfold thetaXY; positivity

theorem contr_of_binom {x y : ℝ} (hx : 0 < x) (hy : 0 < y) (hxy : x + y < 1) {H : ℕ → ℕ → ℝ} {l0 : ℕ}
    (hH : ∀ i s, |H i s| ≤ binomArr x y (l0 + i) (l0 + s)) : Contr H (thetaXY x y) := by
  intro n p z
  have h1 : 0 < 1 - x := by linarith
  have h2 : 0 < 1 - y := by linarith
  have c1 : 0 ≤ y / (1 - y) := by positivity
  have r := fun i : Fin n => binomArr_row hx hy hxy (l0 + i.1) l0 p
  have c := fun s : Fin p => binomArr_col hx hy hxy (l0 + s.1) l0 n
  have hb := fun (i : Fin n) (s : Fin p) => hH i.1 s.1
  have hu := Real.sqrt_pos.mpr hx
  have key := schur_test (K := corner H n p) (H := fun i s => binomArr x y (l0 + i.1) (l0 + s.1))
    (u := fun _ : Fin n => Real.sqrt x) (w := fun _ : Fin p => Real.sqrt y) (c1 := y / (1 - y)) (c2 := x / (1 - x))
    hb (fun _ => hu) (by positivity) r c z
  exact key

theorem binom_le_one {x y : ℝ} (hx : 0 ≤ x) (hy : 0 ≤ y) (hxy : x + y ≤ 1) (a b : ℕ) :
    ((a + b).choose a : ℝ) * x ^ a * y ^ b ≤ 1 := by
  have h : (x + y) ^ (a + b) ≤ 1 := pow_le_one₀ (by positivity) hxy
  rw [add_pow] at h
  refine le_trans ?_ h
  have := Finset.single_le_sum (f := fun m => x ^ m * y ^ (a + b - m) * ((a + b).choose m : ℝ)) (s := Finset.range (a + b + 1))
    (fun i _ => by positivity) (Finset.mem_range.mpr (show a < a + b + 1 by omega))
  simp only [Nat.add_sub_cancel_left] at this
  linarith

theorem binom_square_sum {x y : ℝ} (hx : 0 < x) (hy : 0 < y) (hxy : x + y < 1) {H : ℕ → ℕ → ℝ} {l0 : ℕ}
    (hH : ∀ i s, |H i s| ≤ binomArr x y (l0 + i) (l0 + s)) (n p : ℕ) :
    ∑ i, ∑ s, corner H n p i s ^ 2 ≤ (x / (1 - y)) ^ l0 * (x * y / (1 - x - y)) := by
  have hy1 : 0 < 1 - y := by linarith
  have hd : 0 < 1 - x - y := by linarith
  have entry : ∀ i s, H i s ^ 2 ≤ x ^ (l0 + i) * (x * y) * (((l0 + i + (l0 + s)).choose (l0 + i) : ℝ) * y ^ (l0 + s)) := by
    intro i s
    have h1 : H i s ^ 2 ≤ binomArr x y (l0 + i) (l0 + s) ^ 2 := by
      rw [← sq_abs]; exact pow_le_pow_left₀ (abs_nonneg _) (hH i s) 2
    refine h1.trans ?_
    have h2 := binom_le_one hx.le hy.le hxy.le (l0 + i) (l0 + s)
    unfold binomArr
    set c := ((l0 + i + (l0 + s)).choose (l0 + i) : ℝ) * x ^ (l0 + i) * y ^ (l0 + s) with hc
    have hc0 : 0 ≤ c := by positivity
    rw [mul_pow c, mul_pow (Real.sqrt x), Real.sq_sqrt hx.le, Real.sq_sqrt hy.le]
    calc c ^ 2 * (x * y) ≤ c * (x * y) := mul_le_mul_of_nonneg_right (by nlinarith) (by positivity)
      _ = _ := by rw [hc]; ring
  have row : ∀ i : Fin n, ∑ s : Fin p, corner H n p i s ^ 2 ≤ (x / (1 - y)) ^ l0 * (x * y / (1 - y)) * (x / (1 - y)) ^ i.1 := by
    intro i
    have h1 : ∑ s : Fin p, corner H n p i s ^ 2 ≤ x ^ (l0 + i.1) * (x * y) * (1 / (1 - y) ^ (l0 + i.1 + 1)) := by
      refine (Finset.sum_le_sum fun s _ => entry i.1 s.1).trans ?_
      rw [← Finset.mul_sum]
      exact mul_le_mul_of_nonneg_left (binom_row hy.le (by linarith) _ l0 p) (by positivity)
    refine h1.trans (le_of_eq ?_)
    rw [div_pow, div_pow, pow_succ, pow_add, pow_add]; field_simp
  refine (Finset.sum_le_sum fun i _ => row i).trans ?_
  rw [← Finset.mul_sum, Fin.sum_univ_eq_sum_range (fun i => (x / (1 - y)) ^ i) n]
  have hq : x / (1 - y) < 1 := by rw [div_lt_one hy1]; linarith
  have hg := sum_le_hasSum (Finset.range n) (fun i _ => by positivity) (hasSum_geometric_of_lt_one (r := x / (1 - y)) (by positivity) hq)
  refine (mul_le_mul_of_nonneg_left hg (by positivity)).trans (le_of_eq ?_)
  rw [show 1 - x / (1 - y) = (1 - x - y) / (1 - y) by field_simp; ring]
  field_simp

/-! ## The static operator as `σ K Kᵀ` -/

theorem static_det {n p : ℕ} (l0 : ℕ) {r1 r2 L σa σb : ℝ} {a : Fin n → ℝ} {b : Fin p → ℝ} (v : Matrix (Fin n) (Fin p) ℝ)
    {A : Fin n → ℝ} {B : Fin p → ℝ} (hA : ∀ i, 0 ≤ A i) (hB : ∀ s, 0 ≤ B s)
    (ha : ∀ i, a i * r1 ^ (2 * (l0 + i.1) + 1) = σa * (-1) ^ (l0 + i.1) * A i)
    (hb : ∀ s, b s * r2 ^ (2 * (l0 + s.1) + 1) = σb * (-1) ^ (l0 + s.1) * B s) {K : Matrix (Fin n) (Fin p) ℝ}
    (hK : ∀ i s, K i s = Real.sqrt (A i) * (v i s / L ^ (l0 + i.1 + (l0 + s.1) + 1)) * Real.sqrt (B s)) :
    (1 - staticRoundTrip l0 r1 r2 L a b v).det = (1 - (σa * σb) • (K * Kᵀ)).det := by
  set D : Matrix (Fin n) (Fin n) ℝ := diagonal fun i => (-1) ^ (l0 + i.1) with hD
  set Y : Matrix (Fin n) (Fin n) ℝ := of fun i j => σa * σb * ∑ s, Real.sqrt (A i) * (v i s / L ^ (l0 + i.1 + (l0 + s.1) + 1)) *
    B s * (v j s / L ^ (l0 + j.1 + (l0 + s.1) + 1)) with hY
  have hDD : D * D = 1 := by
    rw [hD, diagonal_mul_diagonal, ← diagonal_one]
    congr 1
    funext i
    rw [← mul_pow]; norm_num
  have e1 : staticRoundTrip l0 r1 r2 L a b v = D * (diagonal (fun i => Real.sqrt (A i)) * Y * D) := by
    ext i j
    unfold staticRoundTrip
    rw [four_product, hD, diagonal_mul, mul_diagonal, diagonal_mul, hY, of_apply]
    simp only [ha, hb, of_apply]
    rw [Finset.mul_sum, Finset.mul_sum, Finset.sum_mul, Finset.mul_sum]
    refine Finset.sum_congr rfl fun s _ => ?_
    have hs : (-1 : ℝ) ^ (l0 + s.1) * (-1) ^ (l0 + s.1 + (l0 + j.1)) = (-1) ^ (l0 + j.1) := by
      rw [pow_add (-1 : ℝ) (l0 + s.1) (l0 + j.1), ← mul_assoc, ← mul_pow]; norm_num
    rw [add_comm (l0 + s.1) (l0 + j.1)] at hs ⊢
    have hAi := Real.mul_self_sqrt (hA i)
    generalize (-1 : ℝ) ^ (l0 + s.1) = t at hs ⊢
    generalize (-1 : ℝ) ^ (l0 + j.1 + (l0 + s.1)) = t2 at hs ⊢
    rw [← hs]
    generalize (L ^ (l0 + i.1 + (l0 + s.1) + 1)) = q1
    generalize (L ^ (l0 + j.1 + (l0 + s.1) + 1)) = q2
    generalize (-1 : ℝ) ^ (l0 + i.1) = t3
    linear_combination (-(σa * t3 * σb * (t * t2) * v i s / q1 * B s * v j s / q2)) * hAi
  have e2 : Y * diagonal (fun i => Real.sqrt (A i)) = (σa * σb) • (K * Kᵀ) := by
    ext i j
    rw [mul_diagonal, hY, of_apply, Matrix.smul_apply, Matrix.mul_apply, smul_eq_mul, mul_assoc, Finset.sum_mul]
    congr 1
    refine Finset.sum_congr rfl fun s _ => ?_
    rw [Matrix.transpose_apply, hK, hK]
    have hBs := Real.mul_self_sqrt (hB s)
    generalize (v i s / L ^ (l0 + i.1 + (l0 + s.1) + 1)) = q1
    generalize (v j s / L ^ (l0 + j.1 + (l0 + s.1) + 1)) = q2
    nth_rw 1 [← hBs]
    ring
  rw [e1, det_one_sub_mul_comm, Matrix.mul_assoc, hDD, Matrix.mul_one, det_one_sub_mul_comm, e2]

/-! ## Size of the static translation coefficients -/

/-- largest magnitude of a static Mie coefficient: `(l+1)/(l (2l+1)!! (2l-1)!!)` -/
noncomputable def kappaL (l : ℕ) : ℝ := (l + 1) / l * (1 / (((2 * l + 1)‼ : ℝ) * ((2 * l - 1)‼ : ℝ)))

theorem transK0Ext_sq {l1 l2 m : ℕ} (h1 : 1 ≤ l1) (h2 : 1 ≤ l2) (hm1 : m ≤ l1) (hm2 : m ≤ l2) :
    kappaL l1 * kappaL l2 * Real.exp (transK0Ext m l1 l2).2 ^ 2 =
      ((l1 + l2)! : ℝ) ^ 2 / (((l1 - m)! : ℝ) * ((l1 + m)! : ℝ) * (((l2 - m)! : ℝ) * ((l2 + m)! : ℝ))) := by
  have a1 : (0 : ℝ) < l1 := by exact_mod_cast h1
  have a2 : (0 : ℝ) < l2 := by exact_mod_cast h2
  have fp : ∀ n : ℕ, (0 : ℝ) < (n ! : ℝ) := fun n => by exact_mod_cast Nat.factorial_pos n
  have dodd : ∀ {l : ℕ}, 1 ≤ l → ((2 * l + 1)‼ : ℝ) = (2 * l + 1) * ((2 * l - 1)‼ : ℝ) := by
    intro l hl
    rw [dfac_odd l hl]
  have lk : ∀ {l : ℕ}, 1 ≤ l → Real.log (kappaL l) = Real.log (l + 1) - Real.log l - Real.log (2 * l + 1) -
      2 * (Real.log ((2 * l)! : ℝ) - l * Real.log 2 - Real.log (l ! : ℝ)) := by
    intro l hl
    have l0 : (0 : ℝ) < l := by exact_mod_cast hl
    have d := dfac_pos (2 * l - 1)
    have d' : (0 : ℝ) < 2 * l + 1 := by positivity
    unfold kappaL
    rw [dodd hl, Real.log_mul (by positivity) (by positivity), Real.log_div (by positivity) l0.ne', one_div, Real.log_inv,
      Real.log_mul (by positivity) d.ne', Real.log_mul d'.ne' d.ne', dfac_two_mul]
    ring
  have kp : ∀ {l : ℕ}, 1 ≤ l → 0 < kappaL l := by
    intro l hl
    have l0 : (0 : ℝ) < l := by exact_mod_cast hl
    have d := dfac_pos (2 * l - 1)
    have d' := dfac_pos (2 * l + 1)
    unfold kappaL; positivity
  have k1 := kp h1
  have k2 := kp h2
  have f1 := fp (l1 + l2)
  have f2 := fp (l1 - m)
  have f3 := fp (l1 + m)
  have f4 := fp (l2 - m)
  have f5 := fp (l2 + m)
  refine Real.log_injOn_pos (Set.mem_Ioi.mpr (by positivity)) (Set.mem_Ioi.mpr (by positivity)) ?_
  rw [Real.log_mul (by positivity) (by positivity), Real.log_mul k1.ne' k2.ne', lk h1, lk h2, Real.log_pow, Real.log_exp,
    Real.log_div (by positivity) (by positivity), Real.log_pow, Real.log_mul (by positivity) (by positivity),
    Real.log_mul f2.ne' f3.ne', Real.log_mul f4.ne' f5.ne']
  unfold transK0Ext
  simp only []
  have g : ∀ (z : ℝ) (n : ℕ), z = n → lgam (z + 1) = Real.log (n ! : ℝ) := by
    intro z n h; rw [h, lgam_nat]
  rw [g ((l1 : ℝ) + l2) (l1 + l2) (by push_cast; rfl), g (2 * (l2 : ℝ)) (2 * l2) (by push_cast; rfl),
    g (2 * (l1 : ℝ)) (2 * l1) (by push_cast; rfl), g (2 * ((l1 : ℝ) + l2)) (2 * (l1 + l2)) (by push_cast; rfl),
    g ((l1 : ℝ) - ((m : ℤ) : ℝ)) (l1 - m) (by push_cast [Nat.cast_sub hm1]; rfl),
    g ((l2 : ℝ) - ((m : ℤ) : ℝ)) (l2 - m) (by push_cast [Nat.cast_sub hm2]; rfl),
    g ((l1 : ℝ) + ((m : ℤ) : ℝ)) (l1 + m) (by push_cast; rfl), g ((l2 : ℝ) + ((m : ℤ) : ℝ)) (l2 + m) (by push_cast; rfl),
    g (2 * (l1 : ℝ) + 2 * l2 + 1) (2 * (l1 + l2) + 1) (by push_cast; ring), g (l1 : ℝ) l1 rfl, g (l2 : ℝ) l2 rfl]
  have e3 : Real.log ((2 * (l1 + l2) + 1)! : ℝ) = Real.log (2 * l1 + 2 * l2 + 1) + Real.log ((2 * (l1 + l2))! : ℝ) := by
    rw [Nat.factorial_succ, Nat.cast_mul, Real.log_mul (by positivity) (by positivity)]
    push_cast
    congr 2
    ring
  rw [e3, Real.log_mul a1.ne' (by positivity), Real.log_mul a2.ne' (by positivity)]
  push_cast
  ring

theorem fact_central {l m : ℕ} (hm : m ≤ l) : (l ! : ℝ) * l ! ≤ ((l - m)! : ℝ) * ((l + m)! : ℝ) := by
  have h := Nat.choose_le_centralBinom (l - m) l
  have h1 := Nat.choose_mul_factorial_mul_factorial (show l - m ≤ 2 * l by omega)
  have h2 := Nat.choose_mul_factorial_mul_factorial (show l ≤ 2 * l by omega)
  rw [show 2 * l - (l - m) = l + m by omega] at h1
  rw [show 2 * l - l = l by omega] at h2
  unfold Nat.centralBinom at h
  have hc : 0 < (2 * l).choose (l - m) := Nat.choose_pos (by omega)
  have h3 : l ! * l ! ≤ (l - m)! * (l + m)! := by
    have : (2 * l).choose (l - m) * (l ! * l !) ≤ (2 * l).choose (l - m) * ((l - m)! * (l + m)!) := by
      calc (2 * l).choose (l - m) * (l ! * l !) ≤ (2 * l).choose l * (l ! * l !) := Nat.mul_le_mul_right _ h
        _ = (2 * l)! := by rw [← mul_assoc, h2]
        _ = _ := by rw [← mul_assoc, h1]
    exact Nat.le_of_mul_le_mul_left this hc
  exact_mod_cast h3

/-- The entries of the symmetrised static operator are bounded by the binomial array. -/
theorem static_entry_bound {l1 l2 m : ℕ} (h1 : 1 ≤ l1) (h2 : 1 ≤ l2) (hm1 : m ≤ l1) (hm2 : m ≤ l2) {r1 r2 L A B v : ℝ}
    (hr1 : 0 < r1) (hr2 : 0 < r2) (hL : 0 < L) (hA0 : 0 ≤ A) (hB0 : 0 ≤ B) (hA : A ≤ kappaL l1 * r1 ^ (2 * l1 + 1))
    (hB : B ≤ kappaL l2 * r2 ^ (2 * l2 + 1)) (hv : |v| = Real.exp (transK0Ext m l1 l2).2) :
    |Real.sqrt A * (v / L ^ (l1 + l2 + 1)) * Real.sqrt B| ≤ binomArr (r1 / L) (r2 / L) l1 l2 := by
  have fp : ∀ n : ℕ, (0 : ℝ) < (n ! : ℝ) := fun n => by exact_mod_cast Nat.factorial_pos n
  have hnn : 0 ≤ binomArr (r1 / L) (r2 / L) l1 l2 := by unfold binomArr; positivity
  refine abs_le_of_sq_le_sq ?_ hnn
  have e1 : (Real.sqrt A * (v / L ^ (l1 + l2 + 1)) * Real.sqrt B) ^ 2 = A * B * (|v| ^ 2 / (L ^ (l1 + l2 + 1)) ^ 2) := by
    rw [mul_pow, mul_pow, Real.sq_sqrt hA0, Real.sq_sqrt hB0, div_pow, sq_abs]; ring
  have e2 : binomArr (r1 / L) (r2 / L) l1 l2 ^ 2 = ((l1 + l2).choose l1 : ℝ) ^ 2 * (r1 ^ (2 * l1 + 1) * r2 ^ (2 * l2 + 1)) /
      (L ^ (l1 + l2 + 1)) ^ 2 := by
    unfold binomArr
    rw [mul_pow, mul_pow (Real.sqrt _), Real.sq_sqrt (by positivity), Real.sq_sqrt (by positivity)]
    simp only [div_pow, mul_pow]
    rw [pow_succ r1, pow_succ r2, pow_succ L, pow_mul', pow_mul', pow_add L, mul_pow, mul_pow]
    field_simp
  rw [e1, e2, hv]
  have step : A * B * Real.exp (transK0Ext m l1 l2).2 ^ 2 ≤
      ((l1 + l2).choose l1 : ℝ) ^ 2 * (r1 ^ (2 * l1 + 1) * r2 ^ (2 * l2 + 1)) := by
    have hk1 : 0 ≤ kappaL l1 * r1 ^ (2 * l1 + 1) := hA0.trans hA
    calc A * B * Real.exp (transK0Ext m l1 l2).2 ^ 2 ≤ (kappaL l1 * r1 ^ (2 * l1 + 1)) * (kappaL l2 * r2 ^ (2 * l2 + 1)) *
        Real.exp (transK0Ext m l1 l2).2 ^ 2 := mul_le_mul_of_nonneg_right (mul_le_mul hA hB hB0 hk1) (by positivity)
      _ = (kappaL l1 * kappaL l2 * Real.exp (transK0Ext m l1 l2).2 ^ 2) * (r1 ^ (2 * l1 + 1) * r2 ^ (2 * l2 + 1)) := by ring
      _ ≤ _ := by
        refine mul_le_mul_of_nonneg_right ?_ (by positivity)
        rw [transK0Ext_sq h1 h2 hm1 hm2]
        have hc : ((l1 + l2).choose l1 : ℝ) = ((l1 + l2)! : ℝ) / ((l1 ! : ℝ) * (l2 ! : ℝ)) := by
          rw [show (l1 + l2).choose l1 = (l1 + l2)! / (l1 ! * l2 !) from by
            rw [Nat.choose_eq_factorial_div_factorial (by omega), Nat.add_sub_cancel_left], Nat.cast_div (Nat.factorial_mul_factorial_dvd_factorial_add l1 l2) (by
            have := fp l1; have := fp l2; push_cast; positivity)]
          push_cast; rfl
        rw [hc, div_pow]
        have q1 := fact_central hm1
        have q2 := fact_central hm2
        have p1 := fp l1
        have p2 := fp l2
        refine div_le_div_of_nonneg_left (by positivity) (by positivity) ?_
        calc ((l1 ! : ℝ) * (l2 ! : ℝ)) ^ 2 = ((l1 ! : ℝ) * l1 !) * ((l2 ! : ℝ) * l2 !) := by ring
          _ ≤ _ := mul_le_mul q1 q2 (by positivity) (by positivity)
  rw [← mul_div_assoc]
  exact div_le_div_of_nonneg_right step (by positivity)

end CasSph
