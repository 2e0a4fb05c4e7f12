import Verif.Lemmas.StrongerK0
import Verif.Lemmas.DipoleBound

/-! # How much the determinants change when rows and columns are left out -/

namespace CasSph

open Spec Filter Topology Matrix

/-! ## Traces of powers -/

theorem mul_pow_shift {n p : ℕ} (A : Matrix (Fin n) (Fin p) ℝ) (B : Matrix (Fin p) (Fin n) ℝ) : ∀ k : ℕ, (A * B) ^ k * A = A * (B * A) ^ k
  | 0 => by rw [pow_zero, pow_zero, Matrix.one_mul, Matrix.mul_one]
  | k + 1 => by
    rw [_root_.pow_succ, _root_.pow_succ, ← Matrix.mul_assoc A, ← mul_pow_shift A B k, Matrix.mul_assoc, Matrix.mul_assoc, Matrix.mul_assoc]

theorem trace_pow_comm {n p : ℕ} (A : Matrix (Fin n) (Fin p) ℝ) (B : Matrix (Fin p) (Fin n) ℝ) (k : ℕ) :
    ((A * B) ^ (k + 1)).trace = ((B * A) ^ (k + 1)).trace := by
  rw [_root_.pow_succ, ← Matrix.mul_assoc, mul_pow_shift, Matrix.mul_assoc, Matrix.trace_mul_comm, Matrix.mul_assoc, ← _root_.pow_succ]

/-- Rows of an array left out. -/
def rowsBelow (n : ℕ) (H : ℕ → ℕ → ℝ) (i s : ℕ) : ℝ := if i < n then H i s else 0

theorem gram_trace_rows (H : ℕ → ℕ → ℝ) {n N : ℕ} (hn : n ≤ N) (p k : ℕ) :
    (gram 1 H n p ^ (k + 1)).trace = (gram 1 (rowsBelow n H) N p ^ (k + 1)).trace := by
  unfold gram
  rw [one_smul, one_smul, trace_pow_comm, trace_pow_comm (corner (rowsBelow n H) N p)]
  congr 2
  ext i j
  rw [Matrix.mul_apply, Matrix.mul_apply]
  simp only [Matrix.transpose_apply, corner, Matrix.of_apply]
  rw [Fin.sum_univ_eq_sum_range (fun s => H s i * H s j) n, Fin.sum_univ_eq_sum_range (fun s => rowsBelow n H s i * rowsBelow n H s j) N]
  refine Eq.trans ?_ (Finset.sum_subset (Finset.range_mono hn) fun s _ hs => ?_)
  · refine Finset.sum_congr rfl fun s hs => ?_
    unfold rowsBelow
    rw [if_pos (Finset.mem_range.mp hs), if_pos (Finset.mem_range.mp hs)]
  · unfold rowsBelow
    rw [if_neg (by simpa using hs), zero_mul]

/-- `Σ_s H_is v_s² H_js` -/
noncomputable def gramV (H : ℕ → ℕ → ℝ) (v : ℕ → ℝ) (N p : ℕ) : Matrix (Fin N) (Fin N) ℝ :=
  of fun i j => ∑ s : Fin p, H i s * v s ^ 2 * H j s

theorem gram_trace_scaled (H : ℕ → ℕ → ℝ) (a v : ℕ → ℝ) (N p k : ℕ) :
    (gram 1 (fun i s => a i * H i s * v s) N p ^ (k + 1)).trace = ((of fun i j : Fin N => a i ^ 2 * gramV H v N p i j) ^ (k + 1) : Matrix _ _ ℝ).trace := by
  have e1 : gram 1 (fun i s => a i * H i s * v s) N p = (diagonal (fun i : Fin N => a i) * gramV H v N p) * diagonal (fun i : Fin N => a i) := by
    ext i j
    rw [Matrix.mul_diagonal, Matrix.diagonal_mul]
    unfold gram gramV
    rw [one_smul, Matrix.mul_apply]
    simp only [Matrix.transpose_apply, corner, Matrix.of_apply]
    rw [Finset.mul_sum, Finset.sum_mul]
    exact Finset.sum_congr rfl fun s _ => by ring
  have e2 : (of fun i j : Fin N => a i ^ 2 * gramV H v N p i j) = diagonal (fun i : Fin N => a i) * (diagonal (fun i : Fin N => a i) * gramV H v N p) := by
    ext i j
    rw [Matrix.diagonal_mul, Matrix.diagonal_mul, Matrix.of_apply]
    ring
  rw [e1, e2, trace_pow_comm]

/-- Powers with and without the rows outside `S`: every path that leaves `S` carries one of the small weights. -/
theorem trunc_pow {N : ℕ} {K Y : Matrix (Fin N) (Fin N) ℝ} {w w0 : Fin N → ℝ} {u : ℝ} (hu : 0 ≤ u) (hw : ∀ i, 0 ≤ w i ∧ w i ≤ 1)
    (hw0 : ∀ i, w0 i = w i ∨ w0 i = 0 ∧ w i ≤ u) (hK : ∀ i j, 0 ≤ K i j) (hY : ∀ i j, K i j ≤ Y i j) : ∀ (k : ℕ) (i j : Fin N),
    0 ≤ ((of fun i j => w0 i * K i j) ^ k : Matrix _ _ ℝ) i j ∧
    ((of fun i j => w0 i * K i j) ^ k : Matrix _ _ ℝ) i j ≤ ((of fun i j => w i * K i j) ^ k : Matrix _ _ ℝ) i j ∧
    ((of fun i j => w i * K i j) ^ k : Matrix _ _ ℝ) i j ≤ (Y ^ k) i j ∧
    ((of fun i j => w i * K i j) ^ k : Matrix _ _ ℝ) i j - ((of fun i j => w0 i * K i j) ^ k : Matrix _ _ ℝ) i j ≤ u * (Y ^ k) i j
  | 0, i, j => by
    rw [pow_zero, pow_zero, pow_zero]
    have : 0 ≤ (1 : Matrix (Fin N) (Fin N) ℝ) i j := by rw [Matrix.one_apply]; split_ifs <;> norm_num
    exact ⟨this, le_rfl, le_rfl, by rw [sub_self]; exact mul_nonneg hu this⟩
  | k + 1, i, j => by
    have ih := trunc_pow hu hw hw0 hK hY k
    rw [pow_succ', pow_succ', pow_succ', Matrix.mul_apply, Matrix.mul_apply, Matrix.mul_apply]
    simp only [Matrix.of_apply]
    have g0 : 0 ≤ w0 i ∧ w0 i ≤ w i := by
      rcases hw0 i with e | ⟨e, -⟩ <;> rw [e]
      · exact ⟨(hw i).1, le_rfl⟩
      · exact ⟨le_rfl, (hw i).1⟩
    refine ⟨Finset.sum_nonneg fun t _ => mul_nonneg (mul_nonneg g0.1 (hK i t)) (ih t j).1, Finset.sum_le_sum fun t _ => ?_, Finset.sum_le_sum fun t _ => ?_, ?_⟩
    · exact mul_le_mul (mul_le_mul_of_nonneg_right g0.2 (hK i t)) (ih t j).2.1 (ih t j).1 (mul_nonneg (hw i).1 (hK i t))
    · refine mul_le_mul ?_ (ih t j).2.2.1 ((ih t j).1.trans (ih t j).2.1) ((hK i t).trans (hY i t))
      exact (mul_le_of_le_one_left (hK i t) (hw i).2).trans (hY i t)
    · rw [← Finset.sum_sub_distrib, Finset.mul_sum]
      refine Finset.sum_le_sum fun t _ => ?_
      have y0 : 0 ≤ (Y ^ k) t j := ((ih t j).1.trans (ih t j).2.1).trans (ih t j).2.2.1
      rcases hw0 i with e | ⟨e, e'⟩
      · rw [e, ← mul_sub]
        calc _ ≤ w i * K i t * (u * (Y ^ k) t j) := mul_le_mul_of_nonneg_left (ih t j).2.2.2 (mul_nonneg (hw i).1 (hK i t))
          _ ≤ Y i t * (u * (Y ^ k) t j) :=
            mul_le_mul_of_nonneg_right ((mul_le_of_le_one_left (hK i t) (hw i).2).trans (hY i t)) (mul_nonneg hu y0)
          _ = _ := by ring
      · rw [e, zero_mul, zero_mul, sub_zero]
        calc _ ≤ u * Y i t * (Y ^ k) t j := by
              refine mul_le_mul ?_ (ih t j).2.2.1 ((ih t j).1.trans (ih t j).2.1) (mul_nonneg hu ((hK i t).trans (hY i t)))
              exact mul_le_mul e' (hY i t) (hK i t) hu
          _ = _ := by ring

theorem trunc_trace {H H' : ℕ → ℕ → ℝ} {a v : ℕ → ℝ} {u : ℝ} {n N : ℕ} (p : ℕ) (hn : n ≤ N) (ha : ∀ i, 0 ≤ a i ∧ a i ≤ 1) (hv : ∀ s, 0 ≤ v s ∧ v s ≤ 1)
    (hu : ∀ i, n ≤ i → a i ^ 2 ≤ u) (u0 : 0 ≤ u) (e : ∀ i s, H i s = a i * H' i s * v s) (h0 : ∀ i s, 0 ≤ H' i s) (k : ℕ) :
    0 ≤ (gram 1 H N p ^ (k + 1)).trace - (gram 1 H n p ^ (k + 1)).trace ∧
    (gram 1 H N p ^ (k + 1)).trace - (gram 1 H n p ^ (k + 1)).trace ≤ u * (gram 1 H' N p ^ (k + 1)).trace := by
  have eH : H = fun i s => a i * H' i s * v s := funext fun i => funext fun s => e i s
  have eR : rowsBelow n H = fun i s => (if i < n then a i else 0) * H' i s * v s := by
    funext i s
    unfold rowsBelow
    split_ifs
    · exact e i s
    · ring
  rw [gram_trace_rows H hn, eR, eH, gram_trace_scaled, gram_trace_scaled H' (fun i => if i < n then a i else 0)]
  have key := trunc_pow (N := N) (K := gramV H' v N p) (Y := gram 1 H' N p) (w := fun i => a i ^ 2) (w0 := fun i => (if i.1 < n then a i else 0) ^ 2) u0
    (fun i => ⟨by positivity, pow_le_one₀ (ha i).1 (ha i).2⟩) (fun i => by
      by_cases hi : i.1 < n
      · exact .inl (by simp only [hi, if_true])
      · exact .inr ⟨by simp only [hi, if_false]; norm_num, hu i (by omega)⟩)
    (fun i j => by
      unfold gramV
      rw [Matrix.of_apply]
      exact Finset.sum_nonneg fun s _ => mul_nonneg (mul_nonneg (h0 _ _) (sq_nonneg _)) (h0 _ _))
    (fun i j => by
      unfold gram gramV
      rw [one_smul, Matrix.mul_apply]
      simp only [Matrix.transpose_apply, corner, Matrix.of_apply]
      refine Finset.sum_le_sum fun s _ => ?_
      exact mul_le_mul_of_nonneg_right (mul_le_of_le_one_right (h0 _ _) (pow_le_one₀ (hv s).1 (hv s).2)) (h0 _ _)) (k + 1)
  simp only [Matrix.trace, Matrix.diag_apply]
  rw [← Finset.sum_sub_distrib, Finset.mul_sum]
  exact ⟨Finset.sum_nonneg fun i _ => sub_nonneg.mpr (key i i).2.1, Finset.sum_le_sum fun i _ => (key i i).2.2.2⟩

/-- Leaving out the rows from `n` on changes the logarithm of the determinant at most by a small fraction of a larger one. -/
theorem trunc_rows {H H' : ℕ → ℕ → ℝ} {a v : ℕ → ℝ} {u θ T θ' T' : ℝ} {n N : ℕ} (p : ℕ) (hn : n ≤ N) (ha : ∀ i, 0 ≤ a i ∧ a i ≤ 1)
    (hv : ∀ s, 0 ≤ v s ∧ v s ≤ 1) (hu : ∀ i, n ≤ i → a i ^ 2 ≤ u) (u0 : 0 ≤ u) (e : ∀ i s, H i s = a i * H' i s * v s) (h0 : ∀ i s, 0 ≤ H' i s)
    (g : HSContr H θ T) (g' : HSContr H' θ' T') {s : ℝ} (hs : s = 1 ∨ s = -1) :
    |Real.log (1 - gram s H N p).det - Real.log (1 - gram s H n p).det| ≤ u * -Real.log (1 - gram 1 H' N p).det := by
  have l1 := traceSum_tendsto (g.spectrum hs N p)
  have l2 := traceSum_tendsto (g.spectrum hs n p)
  have l3 := traceSum_tendsto (g'.spectrum (.inl rfl) N p)
  rw [abs_of_pos (g.pos hs N p).1] at l1
  rw [abs_of_pos (g.pos hs n p).1] at l2
  rw [abs_of_pos (g'.pos (.inl rfl) N p).1] at l3
  have l4 := (l1.sub l2).abs
  rw [show -Real.log (1 - gram s H N p).det - -Real.log (1 - gram s H n p).det = -(Real.log (1 - gram s H N p).det - Real.log (1 - gram s H n p).det) by ring,
    abs_neg] at l4
  refine le_of_tendsto_of_tendsto' l4 (l3.const_mul u) fun K => ?_
  unfold traceSum
  rw [← Finset.sum_sub_distrib, Finset.mul_sum]
  refine (Finset.abs_sum_le_sum_abs _ _).trans (Finset.sum_le_sum fun j hj => ?_)
  obtain ⟨k, rfl⟩ := Nat.exists_eq_add_of_le' (Finset.mem_Icc.mp hj).1
  obtain ⟨t1, t2⟩ := trunc_trace p hn ha hv hu u0 e h0 k
  have eg : ∀ N, (gram s H N p ^ (k + 1)).trace = s ^ (k + 1) * (gram 1 H N p ^ (k + 1)).trace := by
    intro N
    have : gram s H N p = s • gram 1 H N p := by unfold gram; rw [one_smul]
    rw [this, smul_pow, Matrix.trace_smul, smul_eq_mul]
  rw [eg N, eg n, ← sub_div, ← mul_sub, abs_div, abs_mul, abs_pow, show |s| = 1 by rcases hs with rfl | rfl <;> norm_num, one_pow, one_mul, abs_of_nonneg t1,
    abs_of_pos (show (0 : ℝ) < ((k + 1 : ℕ) : ℝ) by positivity), ← mul_div_assoc]
  exact div_le_div_of_nonneg_right t2 (by positivity)

theorem HSContr.transpose {H : ℕ → ℕ → ℝ} {θ T : ℝ} (h : HSContr H θ T) : HSContr (fun i s => H s i) θ T :=
  ⟨h.nonneg, h.lt, Contr.swap h.nonneg h.contr, fun n p => by rw [Finset.sum_comm]; exact h.hs p n⟩

/-- Rows and columns. -/
theorem trunc_both {H H1 H2 : ℕ → ℕ → ℝ} {a1 v1 a2 v2 : ℕ → ℝ} {u1 u2 θ T θ1 T1 θ2 T2 : ℝ} {n N p q : ℕ} (hn : n ≤ N) (hp : p ≤ q)
    (ha1 : ∀ i, 0 ≤ a1 i ∧ a1 i ≤ 1) (hv1 : ∀ s, 0 ≤ v1 s ∧ v1 s ≤ 1) (hu1 : ∀ i, n ≤ i → a1 i ^ 2 ≤ u1) (u10 : 0 ≤ u1)
    (e1 : ∀ i s, H i s = a1 i * H1 i s * v1 s) (h1 : ∀ i s, 0 ≤ H1 i s)
    (ha2 : ∀ i, 0 ≤ a2 i ∧ a2 i ≤ 1) (hv2 : ∀ s, 0 ≤ v2 s ∧ v2 s ≤ 1) (hu2 : ∀ s, p ≤ s → v2 s ^ 2 ≤ u2) (u20 : 0 ≤ u2)
    (e2 : ∀ i s, H i s = a2 i * H2 i s * v2 s) (h2 : ∀ i s, 0 ≤ H2 i s)
    (g : HSContr H θ T) (g1 : HSContr H1 θ1 T1) (g2 : HSContr H2 θ2 T2)
    {s : ℝ} (hs : s = 1 ∨ s = -1) :
    |Real.log (1 - gram s H N q).det - Real.log (1 - gram s H n p).det| ≤
      u1 * -Real.log (1 - gram 1 H1 N q).det + u2 * -Real.log (1 - gram 1 H2 N q).det := by
  have t1 := trunc_rows (s := s) q hn ha1 hv1 hu1 u10 e1 h1 g g1 hs
  have t2 := trunc_rows (H := fun i s => H s i) (H' := fun i s => H2 s i) (s := s) n hp hv2 ha2 hu2 u20 (fun i s => by rw [e2]; ring) (fun i s => h2 s i) g.transpose g2.transpose hs
  rw [← gram_swap_det s n q, ← gram_swap_det s n p, ← gram_swap_det 1 n q] at t2
  have t3 := (g2.mono hn (le_refl q)).1
  have := abs_sub_le (Real.log (1 - gram s H N q).det) (Real.log (1 - gram s H n q).det) (Real.log (1 - gram s H n p).det)
  have t4 := mul_le_mul_of_nonneg_left (neg_le_neg t3) u20
  linarith

/-! ## Perfectly conducting spheres of different radii -/

/-- The reflection of multipole `c + 1` falls with the radius at least with the power `2c + 1`. -/
theorem pecR_power (P : Bool) (c : ℕ) {q ρ : ℝ} (hq : 0 < q) (hq1 : q ≤ 1) (hρ : 0 < ρ) : pecR P c (q * ρ) ≤ q ^ (2 * c + 1) * pecR P c ρ := by
  have hqρ := mul_pos hq hρ
  have hle : q * ρ ≤ ρ := by nlinarith
  have hpi := Real.pi_pos
  have ks : ∀ l, sphK l ρ ≤ q ^ (l + 1) * sphK l (q * ρ) := fun l => by
    have := sphK_pow_anti' l hqρ hle
    rw [mul_pow, mul_right_comm, mul_comm (_ * _) (ρ ^ (l + 1))] at this
    exact le_of_mul_le_mul_left this (by positivity)
  have ratio : ∀ {i i' k k' : ℝ} {x y : ℕ}, 0 < i → 0 < k → 0 < k' → i' ≤ q ^ x * i → k ≤ q ^ y * k' → 2 * c + 1 ≤ x + y →
      Real.pi / 2 * (i' / k') ≤ q ^ (2 * c + 1) * (Real.pi / 2 * (i / k)) := by
    intro i i' k k' x y hi hk hk' h1 h2 hxy
    have h3 : i' / k' ≤ q ^ (x + y) * (i / k) := by
      rw [div_le_iff₀ hk']
      calc i' ≤ q ^ x * i := h1
        _ ≤ q ^ x * i * (q ^ y * k' / k) := le_mul_of_one_le_right (by positivity) ((one_le_div hk).mpr h2)
        _ = _ := by rw [pow_add]; ring
    have h4 : q ^ (x + y) * (i / k) ≤ q ^ (2 * c + 1) * (i / k) :=
      mul_le_mul_of_nonneg_right (pow_le_pow_of_le_one hq.le hq1 hxy) (by positivity)
    calc _ ≤ Real.pi / 2 * (q ^ (2 * c + 1) * (i / k)) := mul_le_mul_of_nonneg_left (h3.trans h4) (by positivity)
      _ = _ := by ring
  cases P with
  | false => exact ratio (sphI_pos (c + 1) hρ) (sphK_pos (c + 1) hρ) (sphK_pos (c + 1) hqρ) (sphI_scale (c + 1) hq.le hq1 hρ) (ks (c + 1)) (by omega)
  | true =>
    refine ratio (dI_pos c hρ) (dK_pos c hρ) (dK_pos c hqρ) (dI_scale c hq hq1 hρ) (y := c + 1) ?_ (by omega)
    unfold dK
    have h1 := ks c
    have h2 := ks (c + 1)
    have k0 := sphK_pos (c + 1) hqρ
    have h3 : (c + 1) / ρ * sphK (c + 1) ρ ≤ q ^ (c + 1) * ((c + 1) / (q * ρ) * sphK (c + 1) (q * ρ)) := by
      have a1 : (c + 1) / ρ * sphK (c + 1) ρ ≤ (c + 1) / ρ * (q ^ (c + 1 + 1) * sphK (c + 1) (q * ρ)) := mul_le_mul_of_nonneg_left h2 (by positivity)
      have a2 : q ^ (c + 1 + 1) ≤ q ^ c := pow_le_pow_of_le_one hq.le hq1 (by omega)
      have a3 : (c + 1) / ρ * (q ^ (c + 1 + 1) * sphK (c + 1) (q * ρ)) ≤ (c + 1) / ρ * (q ^ c * sphK (c + 1) (q * ρ)) :=
        mul_le_mul_of_nonneg_left (mul_le_mul_of_nonneg_right a2 k0.le) (by positivity)
      refine (a1.trans a3).trans (le_of_eq ?_)
      rw [_root_.pow_succ]
      field_simp
    linarith

/-- The same arrangement of perfectly conducting spheres with other radii. -/
def PairIn.mirrorsOf (P : PairIn) (a b : ℝ) : PairIn := { P with mat1 := ⟨.pec, [], none⟩, mat2 := ⟨.pec, [], none⟩, r1 := a, r2 := b }

theorem PairOK.mirrorsOf {P : PairIn} (h : PairOK P) {a b : ℝ} (ha : 0 < a) (hb : 0 < b) (hs : a + b < P.L) : PairOK (P.mirrorsOf a b) :=
  ⟨pec_sphere, pec_sphere, h.m3, ha, hb, hs, h.hl, h.hls⟩

theorem amp_le_pec {m md : Material} (hd : MediumMat md) {k r σ : ℝ} {A : Bool → ℕ → ℝ} (hA : Amp m md k r σ A) (hk : 0 < k)
    {R : ℝ} (hr : 0 < r) (hR : r ≤ R) (Q : Bool) (c : ℕ) : A Q c ≤ (r / R) ^ (2 * c + 1) * pecR Q c (k * Real.sqrt (md.epsV k) * R) := by
  obtain ⟨co, b, -, h2, h3⟩ := hA
  have hR0 := hr.trans_le hR
  have hn : b.n = Real.sqrt (md.epsV k) := by
    have e := (medium_val hd.cls hd.phys hk).1
    rw [h2] at e
    injection e with e
    rw [e]
    unfold Medium.n
    rw [muV_of_none hd.mag, mul_one]
  have hs : 0 < Real.sqrt (md.epsV k) := Real.sqrt_pos.mpr (zero_lt_one.trans_le (hd.one_le hk))
  have := pecR_power Q c (q := r / R) (ρ := k * Real.sqrt (md.epsV k) * R) (by positivity) ((div_le_one hR0).mpr hR) (by positivity)
  refine (((h3 c).1 Q).2.trans (le_of_eq ?_)).trans this
  congr 1
  rw [hn]
  field_simp

/-! ## One `m` -/

theorem ratio_sq {x y u : ℝ} (hx : 0 ≤ x) (hxy : x ≤ u * y) (hy : 0 < y) : (Real.sqrt x / Real.sqrt y) ^ 2 ≤ u := by
  rw [div_pow, Real.sq_sqrt hx, Real.sq_sqrt hy.le, div_le_iff₀ hy]
  exact hxy

theorem lnDetV_trunc {P : PairIn} (h : PairOK P) {k : ℝ} (hk : 0 < k) {a b a' b' m : ℕ} (ha : 1 ≤ a) (hab : a ≤ b) (haa : a ≤ a') (hbb : b ≤ b')
    (hab' : a' ≤ b') (hm : m ≤ a') {R1 R2 : ℝ} (h1 : P.r1 ≤ R1) (h2 : P.r2 ≤ R2) (s1 : R1 + P.r2 < P.L) (s2 : P.r1 + R2 < P.L) :
    |lnDetV (P.cut a' b') m k - (if m ≤ a then lnDetV (P.cut a b) m k else 0)| ≤
      (P.r1 / R1) ^ (2 * a + 1) * -lnDetV ((P.cut a' b').mirrorsOf R1 P.r2) m k +
      (P.r2 / R2) ^ (2 * b + 1) * -lnDetV ((P.cut a' b').mirrorsOf P.r1 R2) m k := by
  have p1 := h.h1.trans_le h1
  have p2 := h.h2.trans_le h2
  obtain ⟨σa, ea⟩ := dense_total h.m1 h.m3 hk
  obtain ⟨σb, eb⟩ := dense_total h.m2 h.m3 hk
  obtain ⟨A, hA⟩ := amp_exists h.m1 h.m3 hk h.h1 ea
  obtain ⟨B, hB⟩ := amp_exists h.m2 h.m3 hk h.h2 eb
  have hc' : PairOK (P.cut a' b') := h.cut (ha.trans haa) hab'
  have hma : max 1 m ≤ a' := by omega
  obtain ⟨g, e⟩ := lnDetV_kern hc' (m := m) hma hk (A := A) (B := B) hA hB
  obtain ⟨g1, e1⟩ := lnDetV_kern (hc'.mirrorsOf (a := R1) (b := P.r2) p1 h.h2 s1) (m := m) hma hk (amp_pec rfl pec_sphere h.m3 hk p1)
    (amp_pec rfl pec_sphere h.m3 hk h.h2)
  obtain ⟨g2, e2⟩ := lnDetV_kern (hc'.mirrorsOf (a := P.r1) (b := R2) h.h1 p2 s2) (m := m) hma hk (amp_pec rfl pec_sphere h.m3 hk h.h1)
    (amp_pec rfl pec_sphere h.m3 hk p2)
  have es : σa * σb = 1 ∨ σa * σb = -1 := by
    rcases ea.sign with e | e <;> rcases eb.sign with e' | e' <;> rw [e, e'] <;> norm_num
  have e0 : (if m ≤ a then lnDetV (P.cut a b) m k else 0) = Real.log (1 - gram (σa * σb) (kern m (k * P.L * Real.sqrt (P.mat3.epsV k)) (m - 1) A B)
      (2 * (a + 1 - transLmin m)) (2 * (b + 1 - transLmin m))).det := by
    split_ifs with hma
    · exact (lnDetV_kern (h.cut ha hab) (m := m) (by show max 1 m ≤ a; omega) hk (A := A) (B := B) hA hB).2
    · have hz : 2 * (a + 1 - transLmin (m : ℤ)) = 0 := by unfold transLmin; omega
      rw [hz, Matrix.det_isEmpty, Real.log_one]
  simp only [PairIn.cut, PairIn.mirrorsOf, one_mul] at g e g1 e1 g2 e2 ⊢
  rw [show (if m ≤ a then lnDetV { P with lmax := a, lssmax := b } m k else 0) = _ from e0, e, e1, e2]
  have hε : 0 < P.mat3.epsV k := zero_lt_one.trans_le (h.m3.one_le hk)
  have hL0 : 0 < P.L := by linarith [h.sep, h.h1, h.h2]
  have hx : 0 < k * P.L * Real.sqrt (P.mat3.epsV k) := by positivity
  have pp : ∀ Q c {r : ℝ}, 0 < r → 0 < pecR Q c (k * Real.sqrt (P.mat3.epsV k) * r) := fun Q c r hr => pecR_pos Q c (by positivity)
  have le1 : ∀ {r R : ℝ} (n : ℕ), 0 < r → r ≤ R → (r / R) ^ n ≤ 1 := fun n hr hR =>
    pow_le_one₀ (div_nonneg hr.le (hr.trans_le hR).le) ((div_le_one (hr.trans_le hR)).mpr hR)
  have cmp : ∀ {A' : Bool → ℕ → ℝ} {mt : Material} {r σ : ℝ}, Amp mt P.mat3 k r σ A' → 0 < r → ∀ {R : ℝ}, r ≤ R → ∀ Q c,
      A' Q c ≤ pecR Q c (k * Real.sqrt (P.mat3.epsV k) * R) := fun hA' hr R hR Q c =>
    (amp_le_pec h.m3 hA' hk hr hR Q c).trans (mul_le_of_le_one_left (pp Q c (hr.trans_le hR)).le (le1 _ hr hR))
  have idx : ∀ {n i : ℕ}, 2 * (n + 1 - transLmin (m : ℤ)) ≤ i → n ≤ m - 1 + i.div2 := by
    intro n i hi
    rw [Nat.div2_val]
    unfold transLmin at hi
    omega
  have small : ∀ {A' : Bool → ℕ → ℝ} {mt : Material} {r σ : ℝ} (hA' : Amp mt P.mat3 k r σ A') (hr : 0 < r) {R : ℝ} (hR : r ≤ R) (n i : ℕ),
      2 * (n + 1 - transLmin (m : ℤ)) ≤ i → (Real.sqrt (A' i.bodd (m - 1 + i.div2)) /
        Real.sqrt (pecR i.bodd (m - 1 + i.div2) (k * Real.sqrt (P.mat3.epsV k) * R))) ^ 2 ≤ (r / R) ^ (2 * n + 1) := by
    intro A' mt r σ hA' hr R hR n i hi
    refine ratio_sq (amp_nonneg hA' _ _) ((amp_le_pec h.m3 hA' hk hr hR _ _).trans ?_) (pp _ _ (hr.trans_le hR))
    refine mul_le_mul_of_nonneg_right (pow_le_pow_of_le_one ?_ ?_ ?_) (pp _ _ (hr.trans_le hR)).le
    · exact div_nonneg hr.le (hr.trans_le hR).le
    · exact (div_le_one (hr.trans_le hR)).mpr hR
    · have := idx hi
      omega
  have fac : ∀ {A' B' X Y : Bool → ℕ → ℝ} (_ : ∀ Q c, 0 ≤ A' Q c ∧ A' Q c ≤ X Q c) (_ : ∀ Q c, 0 ≤ B' Q c ∧ B' Q c ≤ Y Q c) (i s : ℕ),
      kern m (k * P.L * Real.sqrt (P.mat3.epsV k)) (m - 1) A' B' i s =
        (Real.sqrt (A' i.bodd (m - 1 + i.div2)) / Real.sqrt (X i.bodd (m - 1 + i.div2))) *
        kern m (k * P.L * Real.sqrt (P.mat3.epsV k)) (m - 1) X Y i s *
        (Real.sqrt (B' s.bodd (m - 1 + s.div2)) / Real.sqrt (Y s.bodd (m - 1 + s.div2))) := by
    intro A' B' X Y hX hY i s
    unfold kern
    have q1 := (sqrt_ratio (hX i.bodd (m - 1 + i.div2)).1 (hX i.bodd (m - 1 + i.div2)).2).1
    have q2 := (sqrt_ratio (hY s.bodd (m - 1 + s.div2)).1 (hY s.bodd (m - 1 + s.div2)).2).1
    have hmul : ∀ {x y a b c d f : ℝ}, x = a * b → y = c * d → x * f * y = a * (b * f * d) * c := by
      rintro x y a b c d f rfl rfl; ring
    exact hmul q1 q2
  have cA := fun {R : ℝ} (hR : P.r1 ≤ R) Q c => (⟨amp_nonneg hA Q c, cmp hA h.h1 hR Q c⟩ : 0 ≤ A Q c ∧ A Q c ≤ pecR Q c (k * Real.sqrt (P.mat3.epsV k) * R))
  have cB := fun {R : ℝ} (hR : P.r2 ≤ R) Q c => (⟨amp_nonneg hB Q c, cmp hB h.h2 hR Q c⟩ : 0 ≤ B Q c ∧ B Q c ≤ pecR Q c (k * Real.sqrt (P.mat3.epsV k) * R))
  have rng := fun {A' X : Bool → ℕ → ℝ} (hX : ∀ Q c, 0 ≤ A' Q c ∧ A' Q c ≤ X Q c) (i : ℕ) =>
    (sqrt_ratio (hX i.bodd (m - 1 + i.div2)).1 (hX i.bodd (m - 1 + i.div2)).2).2
  exact trunc_both (show 2 * (a + 1 - transLmin (m : ℤ)) ≤ 2 * (a' + 1 - transLmin (m : ℤ)) by omega)
    (show 2 * (b + 1 - transLmin (m : ℤ)) ≤ 2 * (b' + 1 - transLmin (m : ℤ)) by omega)
    (rng (cA h1)) (rng (cB le_rfl)) (small hA h.h1 h1 a) (pow_nonneg (div_nonneg h.h1.le p1.le) _) (fac (cA h1) (cB le_rfl)) (fun i s => kern_nonneg hx _ _ _ _ _)
    (rng (cA le_rfl)) (rng (cB h2)) (small hB h.h2 h2 b) (pow_nonneg (div_nonneg h.h2.le p2.le) _) (fac (cA le_rfl) (cB h2)) (fun i s => kern_nonneg hx _ _ _ _ _)
    g g1 g2 es

/-- The complete sum over `m` at one wavenumber. -/
theorem pairSum_trunc {P : PairIn} (h : PairOK P) {k : ℝ} (hk : 0 < k) {a b a' b' : ℕ} (ha : 1 ≤ a) (hab : a ≤ b) (haa : a ≤ a') (hbb : b ≤ b')
    (hab' : a' ≤ b') {R1 R2 : ℝ} (h1 : P.r1 ≤ R1) (h2 : P.r2 ≤ R2) (s1 : R1 + P.r2 < P.L) (s2 : P.r1 + R2 < P.L) :
    |pairSum (P.cut a' b') k - pairSum (P.cut a b) k| ≤
      (P.r1 / R1) ^ (2 * a + 1) * -pairSum ((P.cut a' b').mirrorsOf R1 P.r2) k +
      (P.r2 / R2) ^ (2 * b + 1) * -pairSum ((P.cut a' b').mirrorsOf P.r1 R2) k := by
  have key := fun m (hm : m ≤ a') => lnDetV_trunc h hk ha hab haa hbb hab' hm h1 h2 s1 s2
  have es : ∑ m ∈ Finset.Icc 1 a, lnDetV (P.cut a b) m k = ∑ m ∈ Finset.Icc 1 a', if m ≤ a then lnDetV (P.cut a b) m k else 0 := by
    rw [← Finset.sum_filter]
    refine Finset.sum_congr ?_ fun _ _ => rfl
    ext m
    simp only [Finset.mem_filter, Finset.mem_Icc]
    omega
  have k0 := key 0 (by omega)
  rw [if_pos (by omega)] at k0
  have ks := Finset.sum_le_sum fun m (hm : m ∈ Finset.Icc 1 a') => key m (Finset.mem_Icc.mp hm).2
  have ka := Finset.abs_sum_le_sum_abs (fun m => lnDetV (P.cut a' b') m k - (if m ≤ a then lnDetV (P.cut a b) m k else 0)) (Finset.Icc 1 a')
  rw [Finset.sum_sub_distrib] at ka
  rw [Finset.sum_add_distrib, ← Finset.mul_sum, ← Finset.mul_sum, Finset.sum_neg_distrib, Finset.sum_neg_distrib] at ks
  unfold pairSum
  simp only [show (P.cut a b).lmax = a from rfl, show (P.cut a' b').lmax = a' from rfl, show ((P.cut a' b').mirrorsOf R1 P.r2).lmax = a' from rfl,
    show ((P.cut a' b').mirrorsOf P.r1 R2).lmax = a' from rfl]
  rw [es, show ∀ x y u v : ℝ, x + 2 * u - (y + 2 * v) = (x - y) + 2 * (u - v) by intros; ring]
  refine (abs_add_le _ _).trans ?_
  rw [abs_mul, abs_of_pos (two_pos : (0 : ℝ) < 2)]
  linarith

/-! ## Zero frequency -/

theorem ratio_sq' {x y u : ℝ} (hx : 0 ≤ x) (hxy : x ≤ u * y) (hy : 0 ≤ y) (hu : 0 ≤ u) : (Real.sqrt x / Real.sqrt y) ^ 2 ≤ u := by
  rcases hy.eq_or_lt with e | e
  · rw [← e, Real.sqrt_zero, div_zero]
    norm_num
    exact hu
  · exact ratio_sq hx hxy e

theorem amp_inflate {r R : ℝ} (hr : 0 < r) (hR : r ≤ R) {A X : ℕ → ℝ} (hX : AmpRange X) (c : AmpLe r r A X) {l : ℕ} (hl : 1 ≤ l) :
    A l * r ^ (2 * l + 1) ≤ (r / R) ^ (2 * l + 1) * (X l * R ^ (2 * l + 1)) := by
  refine (c l hl).trans (le_of_eq ?_)
  have := (hr.trans_le hR).ne'
  rw [div_pow]
  field_simp

theorem kernS_trunc (m : ℕ) {r1 r2 R1 R2 L : ℝ} (h1 : 0 < r1) (h2 : 0 < r2) (hR1 : r1 ≤ R1) (hR2 : r2 ≤ R2) (s1 : R1 + r2 < L) (s2 : r1 + R2 < L)
    {A B X Y : ℕ → ℝ} (hA : AmpRange A) (hB : AmpRange B) (hX : AmpRange X) (hY : AmpRange Y) (cA : AmpLe r1 r1 A X) (cB : AmpLe r2 r2 B Y)
    {a b a' b' : ℕ} (haa : a ≤ a') (hbb : b ≤ b') {s : ℝ} (hs : s = 1 ∨ s = -1) :
    |Real.log (1 - gram s (kernS m (transLmin m) r1 r2 L A B) (a' + 1 - transLmin m) (b' + 1 - transLmin m)).det -
      Real.log (1 - gram s (kernS m (transLmin m) r1 r2 L A B) (a + 1 - transLmin m) (b + 1 - transLmin m)).det| ≤
    (r1 / R1) ^ (2 * a + 1) * -Real.log (1 - gram 1 (kernS m (transLmin m) R1 r2 L X Y) (a' + 1 - transLmin m) (b' + 1 - transLmin m)).det +
    (r2 / R2) ^ (2 * b + 1) * -Real.log (1 - gram 1 (kernS m (transLmin m) r1 R2 L X Y) (a' + 1 - transLmin m) (b' + 1 - transLmin m)).det := by
  have p1 := h1.trans_le hR1
  have p2 := h2.trans_le hR2
  have hL : 0 < L := by linarith
  have hlm : 1 ≤ transLmin (m : ℤ) ∧ m ≤ transLmin (m : ℤ) := by unfold transLmin; omega
  obtain ⟨θ, T, g⟩ := kernS_hs hlm.1 hlm.2 h1 h2 (by linarith : r1 + r2 < L) hA hB
  obtain ⟨θ1, T1, g1⟩ := kernS_hs hlm.1 hlm.2 p1 h2 s1 hX hY
  obtain ⟨θ2, T2, g2⟩ := kernS_hs hlm.1 hlm.2 h1 p2 s2 hX hY
  have le1 : ∀ {r R : ℝ} (n : ℕ), 0 < r → r ≤ R → (r / R) ^ n ≤ 1 := fun n hr hR =>
    pow_le_one₀ (div_nonneg hr.le (hr.trans_le hR).le) ((div_le_one (hr.trans_le hR)).mpr hR)
  have np : ∀ {X : ℕ → ℝ}, AmpRange X → ∀ {r : ℝ}, 0 < r → ∀ {l : ℕ}, 1 ≤ l → 0 ≤ X l * r ^ (2 * l + 1) := by
    intro X hX r hr l hl
    exact mul_nonneg (hX _ hl).1 (by positivity)
  have cmp : ∀ {A X : ℕ → ℝ}, AmpRange A → AmpRange X → ∀ {r R : ℝ}, 0 < r → r ≤ R → AmpLe r r A X → AmpLe r R A X := by
    intro A X _ hX r R hr hR c l hl
    exact (amp_inflate hr hR hX c hl).trans (mul_le_of_le_one_left (np hX (hr.trans_le hR) hl) (le1 _ hr hR))
  have rng : ∀ {A X : ℕ → ℝ}, AmpRange A → ∀ {r R : ℝ}, 0 < r → AmpLe r R A X → ∀ i,
      0 ≤ Real.sqrt (A (transLmin m + i) * r ^ (2 * (transLmin m + i) + 1)) / Real.sqrt (X (transLmin m + i) * R ^ (2 * (transLmin m + i) + 1)) ∧
      Real.sqrt (A (transLmin m + i) * r ^ (2 * (transLmin m + i) + 1)) / Real.sqrt (X (transLmin m + i) * R ^ (2 * (transLmin m + i) + 1)) ≤ 1 := by
    intro A X hA r R hr c i
    exact (sqrt_ratio (np hA hr (by omega)) (c _ (by omega))).2
  have small : ∀ {A X : ℕ → ℝ}, AmpRange A → AmpRange X → ∀ {r R : ℝ}, 0 < r → r ≤ R → AmpLe r r A X → ∀ n i, n + 1 - transLmin (m : ℤ) ≤ i →
      (Real.sqrt (A (transLmin m + i) * r ^ (2 * (transLmin m + i) + 1)) / Real.sqrt (X (transLmin m + i) * R ^ (2 * (transLmin m + i) + 1))) ^ 2 ≤
        (r / R) ^ (2 * n + 1) := by
    intro A X hA hX r R hr hR c n i hi
    have q0 : 0 ≤ r / R := div_nonneg hr.le (hr.trans_le hR).le
    refine ratio_sq' (np hA hr (by omega)) ((amp_inflate hr hR hX c (by omega)).trans ?_) (np hX (hr.trans_le hR) (by omega)) (pow_nonneg q0 _)
    exact mul_le_mul_of_nonneg_right (pow_le_pow_of_le_one q0 ((div_le_one (hr.trans_le hR)).mpr hR) (by omega)) (np hX (hr.trans_le hR) (by omega))
  have fac : ∀ {ρ1 ρ2 : ℝ}, AmpLe r1 ρ1 A X → AmpLe r2 ρ2 B Y → ∀ i s, kernS m (transLmin m) r1 r2 L A B i s =
      (Real.sqrt (A (transLmin m + i) * r1 ^ (2 * (transLmin m + i) + 1)) / Real.sqrt (X (transLmin m + i) * ρ1 ^ (2 * (transLmin m + i) + 1))) *
      kernS m (transLmin m) ρ1 ρ2 L X Y i s *
      (Real.sqrt (B (transLmin m + s) * r2 ^ (2 * (transLmin m + s) + 1)) / Real.sqrt (Y (transLmin m + s) * ρ2 ^ (2 * (transLmin m + s) + 1))) := by
    intro ρ1 ρ2 c1 c2 i s
    have q1 := (sqrt_ratio (np hA h1 (l := transLmin m + i) (by omega)) (c1 (transLmin m + i) (by omega))).1
    have q2 := (sqrt_ratio (np hB h2 (l := transLmin m + s) (by omega)) (c2 (transLmin m + s) (by omega))).1
    have hmul : ∀ {x y a b c d f : ℝ}, x = a * b → y = c * d → x * f * y = a * (b * f * d) * c := by
      rintro x y a b c d f rfl rfl; ring
    exact hmul q1 q2
  exact trunc_both (show a + 1 - transLmin (m : ℤ) ≤ a' + 1 - transLmin (m : ℤ) by omega) (show b + 1 - transLmin (m : ℤ) ≤ b' + 1 - transLmin (m : ℤ) by omega)
    (rng hA h1 (cmp hA hX h1 hR1 cA)) (rng hB h2 cB) (small hA hX h1 hR1 cA a) (pow_nonneg (div_nonneg h1.le p1.le) _) (fac (cmp hA hX h1 hR1 cA) cB)
    (fun i s => kernS_nonneg _ _ hL _ _ _ _)
    (rng hA h1 cA) (rng hB h2 (cmp hB hY h2 hR2 cB)) (small hB hY h2 hR2 cB b) (pow_nonneg (div_nonneg h2.le p2.le) _) (fac cA (cmp hB hY h2 hR2 cB))
    (fun i s => kernS_nonneg _ _ hL _ _ _ _) g g1 g2 hs

/-- `mSumme_k0` without early termination. -/
theorem pairK0_trunc {P : PairIn} (h : PairOK P) (hprec : P.precision ≤ 0) (frac : ℝ → ℝ → ℝ) {a b a' b' : ℕ} (ha : 1 ≤ a) (hab : a ≤ b) (haa : a ≤ a')
    (hbb : b ≤ b') (hab' : a' ≤ b') {R1 R2 : ℝ} (h1 : P.r1 ≤ R1) (h2 : P.r2 ≤ R2) (s1 : R1 + P.r2 < P.L) (s2 : P.r1 + R2 < P.L) :
    ∃ z z' z1 z2, pairK0 frac (P.cut a b) = .ok z ∧ pairK0 frac (P.cut a' b') = .ok z' ∧ pairK0 frac ((P.cut a' b').mirrorsOf R1 P.r2) = .ok z1 ∧
      pairK0 frac ((P.cut a' b').mirrorsOf P.r1 R2) = .ok z2 ∧
      |z' - z| ≤ (P.r1 / R1) ^ (2 * a + 1) * -z1 + (P.r2 / R2) ^ (2 * b + 1) * -z2 := by
  have p1 := h.h1.trans_le h1
  have p2 := h.h2.trans_le h2
  have prod : ∀ {s t : ℝ}, (s = 1 ∨ s = -1) → (t = 1 ∨ t = -1) → s * t = 1 ∨ s * t = -1 := by
    rintro s t (rfl | rfl) (rfl | rfl) <;> norm_num
  obtain ⟨⟨σa, ea⟩, ⟨τa, ga⟩⟩ := sign_total h.m1.static h.m3.diel h.m3.phys
  obtain ⟨⟨σb, eb⟩, ⟨τb, gb⟩⟩ := sign_total h.m2.static h.m3.diel h.m3.phys
  obtain ⟨⟨σ, ep⟩, ⟨τ, gp⟩⟩ := sign_total pec_sphere.static h.m3.diel h.m3.phys
  obtain ⟨A, A', B, B', hA, hB, hz⟩ := pairK0_rep h hprec frac ea eb ga gb
  obtain ⟨X, X', hX⟩ := ampK0_exists frac pec_sphere h.m3 h.h1 ep gp
  have hXr : ∀ R : ℝ, AmpK0 frac ⟨.pec, [], none⟩ P.mat3 R σ τ X X' := fun R => hX
  have hm := Stronger.metal P
  obtain ⟨cA, cA'⟩ := ampK0_stronger h.m1 pec_sphere h.m3 h.h1 le_rfl hm.c1 hA (hXr P.r1) ea.sign ga.sign ep.sign gp.sign
  obtain ⟨cB, cB'⟩ := ampK0_stronger h.m2 pec_sphere h.m3 h.h2 le_rfl hm.c2 hB (hXr P.r2) eb.sign gb.sign ep.sign gp.sign
  have hc' : PairOK (P.cut a' b') := h.cut (ha.trans haa) hab'
  have rep : ∀ {ρ1 ρ2 : ℝ}, 0 < ρ1 → 0 < ρ2 → ρ1 + ρ2 < P.L → pairK0 frac ((P.cut a' b').mirrorsOf ρ1 ρ2) =
      .ok (k0V 0 ρ1 ρ2 P.L a' b' 1 1 X X' X X' + 2 * ∑ m ∈ Finset.Icc 1 a', k0V m ρ1 ρ2 P.L a' b' 1 1 X X' X X') := by
    intro ρ1 ρ2 g1 g2 g3
    rw [pairK0_kern (hc'.mirrorsOf g1 g2 g3) (A := X) (A' := X') (B := X) (B' := X') (hXr ρ1) (hXr ρ2), mSummeK0_full (by exact hprec), ok_bind,
      show σ * σ = 1 by rcases ep.sign with e | e <;> rw [e] <;> norm_num, show τ * τ = 1 by rcases gp.sign with e | e <;> rw [e] <;> norm_num]
    rfl
  refine ⟨_, _, _, _, hz a b ha hab, hz a' b' (ha.trans haa) hab', rep p1 h.h2 s1, rep h.h1 p2 s2, ?_⟩
  have key : ∀ m, |k0V m P.r1 P.r2 P.L a' b' (σa * σb) (τa * τb) A A' B B' - k0V m P.r1 P.r2 P.L a b (σa * σb) (τa * τb) A A' B B'| ≤
      (P.r1 / R1) ^ (2 * a + 1) * -k0V m R1 P.r2 P.L a' b' 1 1 X X' X X' + (P.r2 / R2) ^ (2 * b + 1) * -k0V m P.r1 R2 P.L a' b' 1 1 X X' X X' := by
    intro m
    have t1 := kernS_trunc m h.h1 h.h2 h1 h2 s1 s2 hA.1 hB.1 hX.1 hX.1 cA cB haa hbb (prod ea.sign eb.sign)
    have t2 := kernS_trunc m h.h1 h.h2 h1 h2 s1 s2 hA.2.1 hB.2.1 hX.2.1 hX.2.1 cA' cB' haa hbb (prod ga.sign gb.sign)
    unfold k0V
    rw [add_sub_add_comm]
    refine (abs_add_le _ _).trans ?_
    linarith
  have es : ∑ m ∈ Finset.Icc 1 a, k0V m P.r1 P.r2 P.L a b (σa * σb) (τa * τb) A A' B B' =
      ∑ m ∈ Finset.Icc 1 a', k0V m P.r1 P.r2 P.L a b (σa * σb) (τa * τb) A A' B B' := by
    refine Finset.sum_subset (Finset.Icc_subset_Icc le_rfl haa) fun m h1 h2 => ?_
    have hz : a + 1 - transLmin (m : ℤ) = 0 := by
      simp only [Finset.mem_Icc] at h1 h2
      unfold transLmin
      omega
    unfold k0V
    rw [hz, Matrix.det_isEmpty, Matrix.det_isEmpty, Real.log_one, add_zero]
  have ks := Finset.sum_le_sum fun m (_ : m ∈ Finset.Icc 1 a') => key m
  have ka := Finset.abs_sum_le_sum_abs (fun m => k0V m P.r1 P.r2 P.L a' b' (σa * σb) (τa * τb) A A' B B' -
    k0V m P.r1 P.r2 P.L a b (σa * σb) (τa * τb) A A' B B') (Finset.Icc 1 a')
  rw [Finset.sum_sub_distrib] at ka
  rw [Finset.sum_add_distrib, ← Finset.mul_sum, ← Finset.mul_sum, Finset.sum_neg_distrib, Finset.sum_neg_distrib] at ks
  have k0 := key 0
  rw [es, show ∀ x y u v : ℝ, x + 2 * u - (y + 2 * v) = (x - y) + 2 * (u - v) by intros; ring]
  refine (abs_add_le _ _).trans ?_
  rw [abs_mul, abs_of_pos (two_pos : (0 : ℝ) < 2)]
  linarith

end CasSph
