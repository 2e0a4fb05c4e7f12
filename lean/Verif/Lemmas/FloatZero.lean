import Verif.Lemmas.FloatZeroMie
import Verif.Props.FloatEnergy

/-! Rounding errors of the zero-frequency matrices. -/

namespace CasSph

open Spec Matrix

variable {A : FlZero} {u : ℝ} {n p : ℕ}

/-- The scaling factors. -/
theorem flMag (hA : RelErrZ A u) {G : ℝ} (hG : 0 ≤ G) (hn : 0 < n) (hp : 0 < p) {X' X : Fin n → Fin n → Fin p → ℝ} (h : ∀ i j s, Ae u G 50 450 (X' i j s) (X i j s)) :
    ∃ mag α, A.dynamicScaling X' = .ok mag ∧ ∀ i j s, Cl (Real.exp (840 * (u * G)) * (1 + u)) (Real.exp (α * ((i.1 : ℝ) - j.1)) * Real.exp (X i j s)) (mag i j s)
      (Real.exp (α * ((i.1 : ℝ) - j.1)) * Real.exp (X i j s)) := by
  have hu := hA.u0
  have uG : u * G ≤ 1 / 100 * G := mul_le_mul_of_nonneg_right hA.u1 hG
  obtain ⟨Y, a, hY, hb⟩ := singleKScale_err hA.toRelErr (Z := 13 * G) hn hp (X := X') fun i j s => by
    have := abs_sub_abs_le_abs_sub (X' i j s) (X i j s)
    have h1 := (h i j s).1
    have h2 := (h i j s).2
    norm_num at *; linarith
  refine ⟨fun i j s => A.exp (Y i j s), a, by unfold FlFun.dynamicScaling; rw [hY]; rfl, fun l1 l2 s => ?_⟩
  have h1 := hb l1 l2 s
  have h2 := (h l1 l2 s).2
  obtain ⟨θ, hθ⟩ : ∃ θ, θ = Y l1 l2 s - (a * ((l1.1 : ℝ) - l2.1) + X l1 l2 s) := ⟨_, rfl⟩
  have hθ1 : |θ| ≤ 840 * (u * G) := by
    have := abs_add_le (Y l1 l2 s - (a * ((l1.1 : ℝ) - l2.1) + X' l1 l2 s)) (X' l1 l2 s - X l1 l2 s)
    rw [show Y l1 l2 s - (a * ((l1.1 : ℝ) - l2.1) + X' l1 l2 s) + (X' l1 l2 s - X l1 l2 s) = θ by rw [hθ]; ring] at this
    linarith
  obtain ⟨b, hbb⟩ : ∃ b, b = Real.exp (a * ((l1.1 : ℝ) - l2.1)) * Real.exp (X l1 l2 s) := ⟨_, rfl⟩
  have b0 : 0 < b := by rw [hbb]; positivity
  rw [← hbb]
  have hy : Real.exp (Y l1 l2 s) = b * Real.exp θ := by
    rw [hbb, ← Real.exp_add, ← Real.exp_add, hθ]; congr 1; ring
  have c : Cl 1 b b b := ⟨le_rfl, (abs_of_pos b0).le, by simp⟩
  have := (c.mul (Cl.expo hθ1)).fl hA.u0 (z := A.exp (Y l1 l2 s)) (by
    rw [← hy, abs_of_pos (Real.exp_pos _)]; exact hA.exp _)
  rw [one_mul, mul_one] at this
  exact this

/-- One entry. -/
theorem zeroEntry (hA : RelErrZ A u) {sum : (p : ℕ) → (Fin p → ℝ) → ℝ} (hS : Sums A.toFlFun sum) {W w : ℝ} (hW : 1 ≤ W) (hw : 1 ≤ w) {mag e sg : Fin p → ℝ} {Ka a' a : ℝ}
    {Kb b' b : Fin p → ℝ} (hsg : ∀ s, |sg s| = 1) (hm : ∀ s, Cl W (e s) (mag s) (e s)) (ha : Cl w Ka a' a) (hb : ∀ s, Cl w (Kb s) (b' s) (b s)) :
    Cl (w * w * W * (1 + u) ^ (p + 2)) (∑ s, e s * (Ka * Kb s)) (sum p fun s => A.mul (A.mul (sg s * a') (b' s)) (mag s)) (∑ s, e s * (sg s * a * b s)) := by
  have hu := hA.u0
  have key : ∀ s, Cl (w * w * W * (1 + u) ^ 2) (e s * (Ka * Kb s)) (A.mul (A.mul (sg s * a') (b' s)) (mag s)) (e s * (sg s * a * b s)) := by
    intro s
    have c0 : Cl w Ka (sg s * a') (sg s * a) :=
      ⟨ha.1, by rw [abs_mul, hsg, one_mul]; exact ha.2.1, by rw [← mul_sub, abs_mul, hsg, one_mul]; exact ha.2.2⟩
    have c := ((((c0.mul (hb s)).fl hu (hA.mul _ _)).mul (hm s)).fl hu (hA.mul _ _))
    refine Eq.mp ?_ c
    congr 1 <;> ring
  have := SumOf.cl hA.toRelErr (hS p fun s => A.mul (A.mul (sg s * a') (b' s)) (mag s)) (w := w * w * W * (1 + u) ^ 2)
    (one_le_mul_of_one_le_of_one_le (one_le_mul_of_one_le_of_one_le (one_le_mul_of_one_le_of_one_le hw hw) hW) (one_le_pow₀ (by linarith)))
    (fun s => e s * (sg s * a * b s)) (fun s => e s * (Ka * Kb s)) (List.finRange p) (fun s => A.mul (A.mul (sg s * a') (b' s)) (mag s)) (fun s _ => key s)
    (List.ofFn_eq_map ..)
  rw [List.length_ofFn, ← List.ofFn_eq_map, ← List.ofFn_eq_map, List.sum_ofFn, List.sum_ofFn, mul_assoc, ← pow_add, Nat.add_comm 2 p] at this
  exact this

/-- Two matrices, up to conjugation with diagonal matrices. -/
theorem HSContr.perturb_conj {H : ℕ → ℕ → ℝ} {θ T κ : ℝ} (g : HSContr H θ T) (hκ : 0 ≤ κ) (hs : (1 + κ) * θ < 1) {M M' F : Matrix (Fin n) (Fin n) ℝ} {α : ℝ}
    {q : Fin n → ℝ} (hq : ∀ i, 0 < q i) (hF : ∀ i j, F i j = q i / q j * gram 1 H n p i j)
    (c : ∀ i j, Cl (1 + κ) (Real.exp (α * ((i.1 : ℝ) - j.1)) * F i j) (M' i j) (Real.exp (α * ((i.1 : ℝ) - j.1)) * M i j)) :
    0 < (1 - M').det ∧ 0 < (1 - M).det ∧
      |Real.log (1 - M').det - Real.log (1 - M).det| ≤ gain κ θ * -Real.log (1 - gram 1 H n p).det := by
  obtain ⟨B, hB⟩ : ∃ B : Matrix (Fin n) (Fin n) ℝ, B = of fun i j => (q i)⁻¹ * M i j * ((q j)⁻¹)⁻¹ := ⟨_, rfl⟩
  obtain ⟨B', hB'⟩ : ∃ B' : Matrix (Fin n) (Fin n) ℝ, B' = of fun i j => (Real.exp (-(α * i.1)) * (q i)⁻¹) * M' i j * (Real.exp (-(α * j.1)) * (q j)⁻¹)⁻¹ := ⟨_, rfl⟩
  have d1 := (sameRoundTrip_of_diag (M := M) (N := B) (fun i => (q i)⁻¹) (fun i => (inv_pos.mpr (hq i)).ne') fun i j => by rw [hB]; rfl).det
  have d2 := (sameRoundTrip_of_diag (M := M') (N := B') (fun i => Real.exp (-(α * i.1)) * (q i)⁻¹)
    (fun i => (mul_pos (Real.exp_pos _) (inv_pos.mpr (hq i))).ne') fun i j => by rw [hB']; rfl).det
  have key : ∀ i j, |B i j| ≤ gram 1 H n p i j ∧ |B' i j - B i j| ≤ κ * gram 1 H n p i j := by
    intro i j
    have cc := c i j
    have qi := hq i
    have qj := hq j
    have ei : Real.exp (α * ((i.1 : ℝ) - j.1)) = Real.exp (α * i.1) / Real.exp (α * j.1) := by rw [← Real.exp_sub]; congr 1; ring
    have e1 : (Real.exp (-(α * i.1)) * (q i)⁻¹) * (Real.exp (-(α * j.1)) * (q j)⁻¹)⁻¹ = Real.exp (α * j.1) / Real.exp (α * i.1) * (q j / q i) := by
      rw [Real.exp_neg, Real.exp_neg]; field_simp
    have pi := Real.exp_pos (α * i.1)
    have pj := Real.exp_pos (α * j.1)
    obtain ⟨t, ht⟩ : ∃ t, t = Real.exp (α * j.1) / Real.exp (α * i.1) * (q j / q i) := ⟨_, rfl⟩
    have t0 : 0 < t := by rw [ht]; positivity
    have ct : Cl 1 t t t := ⟨le_rfl, (abs_of_pos t0).le, by simp⟩
    have c' := ct.mul cc
    rw [one_mul] at c'
    have f1 : t * (Real.exp (α * ((i.1 : ℝ) - j.1)) * F i j) = gram 1 H n p i j := by
      rw [hF, ht, ei]; field_simp
    have f2 : t * M' i j = B' i j := by
      rw [hB', of_apply, mul_assoc, mul_comm (M' i j), ← mul_assoc, e1, ht]
    have f3 : t * (Real.exp (α * ((i.1 : ℝ) - j.1)) * M i j) = B i j := by
      rw [hB, of_apply, ht, ei]; field_simp
    rw [f1, f2, f3] at c'
    refine ⟨c'.2.1, c'.2.2.trans_eq (by ring)⟩
  obtain ⟨r1, r2, r3⟩ := g.perturb hκ hs (A := B') (B := B) (fun i j => (key i j).1) fun i j => (key i j).2
  rw [d2] at r1 r3
  rw [d1] at r2 r3
  refine ⟨r1, r2, r3.trans ?_⟩
  exact mul_le_mul_of_nonneg_left (g.trace_le_log n p).1 (div_nonneg hκ (by linarith))

/-- The arrays of static coefficients contract with the ratio `shrink`. -/
theorem kernS_shrink {m l0 : ℕ} (hl0 : 1 ≤ l0) (hml : m ≤ l0) {r1 r2 L : ℝ} (h1 : 0 < r1) (h2 : 0 < r2) (hs : r1 + r2 < L) {a b : ℕ → ℝ} (ha : AmpRange a)
    (hb : AmpRange b) : ∃ T, HSContr (kernS m l0 r1 r2 L a b) (shrink r1 r2 L) T := by
  have hL : 0 < L := by linarith
  have hx : 0 < r1 / L := by positivity
  have hy : 0 < r2 / L := by positivity
  have hxy : r1 / L + r2 / L < 1 := by rw [← add_div, div_lt_one hL]; exact hs
  have hH := kernS_bound hl0 hml h1 h2 hL ha hb
  obtain ⟨s0, s1⟩ := shrink_mem h1 h2 hs
  have e : thetaXY (r1 / L) (r2 / L) ≤ shrink r1 r2 L := by
    have d : 0 < L - (r1 + r2) := by linarith
    have p1 : 0 < L - r1 := by linarith
    have p2 : 0 < L - r2 := by linarith
    have : thetaXY (r1 / L) (r2 / L) = r1 * r2 / ((L - r2) * (L - r1)) := by
      unfold thetaXY
      rw [show 1 - r2 / L = (L - r2) / L by field_simp, show 1 - r1 / L = (L - r1) / L by field_simp]
      field_simp
    rw [this]
    unfold shrink
    refine div_le_div_of_nonneg_left (by positivity) (by positivity) (mul_le_mul (by linarith) (by linarith) (by positivity) p2.le)
  exact ⟨_, s0.le, s1, (contr_of_binom hx hy hxy hH).mono e, binom_square_sum hx hy hxy hH⟩

/-- The dominating matrix. -/
theorem kernS_dominate {m l0 : ℕ} (hl0 : 1 ≤ l0) {r1 r2 L : ℝ} (h1 : 0 < r1) (h2 : 0 < r2) (hL : 0 < L) {f g a b : ℕ → ℝ} (ha : ∀ l, 1 ≤ l → 0 < a l) (hb : ∀ l, 1 ≤ l → 0 < b l)
    {x y : ℕ → ℝ} (hf : ∀ l, 1 ≤ l → f l * Real.exp (x l) = a l) (hg : ∀ l, 1 ≤ l → g l * Real.exp (y l) = b l) (i j : Fin n) :
    ∑ s : Fin p, Real.exp (x (l0 + i.1) + y (l0 + s.1) + (transK0Ext m (l0 + i.1) (l0 + s.1)).2 + (transK0Ext m (l0 + j.1) (l0 + s.1)).2 +
        (((l0 + i.1 : ℕ) + (l0 + j.1 : ℕ) + 1 : ℝ) * Real.log (r1 / L) + (2 * (l0 + s.1 : ℕ) + 1 : ℝ) * Real.log (r2 / L))) * (f (l0 + i.1) * g (l0 + s.1)) =
      Real.sqrt (a (l0 + i.1)) / Real.sqrt (a (l0 + j.1)) * gram 1 (kernS m l0 r1 r2 L a b) n p i j := by
  rw [gram_apply, one_mul, ← Fin.sum_univ_eq_sum_range (fun s => kernS m l0 r1 r2 L a b i.1 s * kernS m l0 r1 r2 L a b j.1 s), Finset.mul_sum]
  refine Finset.sum_congr rfl fun s _ => ?_
  have ai := ha (l0 + i.1) (by omega)
  have aj := ha (l0 + j.1) (by omega)
  have bs := hb (l0 + s.1) (by omega)
  have q1 : 0 < r1 / L := by positivity
  have q2 : 0 < r2 / L := by positivity
  have e1 : Real.exp (((l0 + i.1 : ℕ) + (l0 + j.1 : ℕ) + 1 : ℝ) * Real.log (r1 / L)) = (r1 / L) ^ (l0 + i.1 + (l0 + j.1) + 1) := by
    rw [show ((l0 + i.1 : ℕ) + (l0 + j.1 : ℕ) + 1 : ℝ) = ((l0 + i.1 + (l0 + j.1) + 1 : ℕ) : ℝ) by push_cast; ring, Real.exp_nat_mul, Real.exp_log q1]
  have e2 : Real.exp ((2 * (l0 + s.1 : ℕ) + 1 : ℝ) * Real.log (r2 / L)) = (r2 / L) ^ (2 * (l0 + s.1) + 1) := by
    rw [show (2 * (l0 + s.1 : ℕ) + 1 : ℝ) = ((2 * (l0 + s.1) + 1 : ℕ) : ℝ) by push_cast; ring, Real.exp_nat_mul, Real.exp_log q2]
  have e3 := hf (l0 + i.1) (by omega)
  have e4 := hg (l0 + s.1) (by omega)
  unfold kernS
  rw [Real.exp_add, Real.exp_add, Real.exp_add, Real.exp_add, Real.exp_add, e1, e2, Real.sqrt_mul ai.le, Real.sqrt_mul aj.le]
  generalize l0 + i.1 = c at *
  generalize l0 + j.1 = d at *
  generalize l0 + s.1 = v at *
  have s1 := Real.sqrt_pos.mpr ai
  have s2 := Real.sqrt_pos.mpr aj
  have s3 := Real.mul_self_sqrt ai.le
  have s4 : Real.sqrt (r1 ^ (2 * c + 1)) * Real.sqrt (r1 ^ (2 * d + 1)) = r1 ^ (c + d + 1) := by
    rw [← Real.sqrt_mul (by positivity), ← pow_add, show 2 * c + 1 + (2 * d + 1) = (c + d + 1) * 2 by ring, pow_mul, Real.sqrt_sq (by positivity)]
  have s5 := Real.mul_self_sqrt (show 0 ≤ b v * r2 ^ (2 * v + 1) by positivity)
  calc _ = (f c * Real.exp (x c)) * (g v * Real.exp (y v)) * Real.exp (transK0Ext m c v).2 * Real.exp (transK0Ext m d v).2 *
        ((r1 / L) ^ (c + d + 1) * (r2 / L) ^ (2 * v + 1)) := by ring
    _ = (Real.sqrt (a c) * Real.sqrt (a c)) * (b v * r2 ^ (2 * v + 1)) * Real.exp (transK0Ext m c v).2 * Real.exp (transK0Ext m d v).2 *
        (r1 ^ (c + d + 1) / (L ^ (c + v + 1) * L ^ (d + v + 1))) := by
      rw [e3, e4, s3, div_pow, div_pow, ← pow_add, show c + v + 1 + (d + v + 1) = c + d + 1 + (2 * v + 1) by ring, pow_add L (c + d + 1)]
      field_simp
    _ = _ := by
      rw [← s4]
      generalize hB : Real.sqrt (b v * r2 ^ (2 * v + 1)) = β at s5 ⊢
      rw [← s5]
      field_simp

end CasSph
