import Verif.Model.FloatBalance
import Verif.Spec.Float
import Verif.Lemmas.Balance

/-! # `balance` in floating-point arithmetic: lemmas -/

namespace CasSph

open scoped Classical

/-- What is used of the arithmetic: the representable numbers are closed under the operations and under scaling by powers of two, which is exact;
all other operations have a relative error of at most `u`. -/
structure FlArith.Laws (A : FlArith) : Prop where
  u0 : 0 ≤ A.u
  u1 : A.u < 1
  zero : A.fl 0
  one : A.fl 1
  abs : ∀ {x}, A.fl x → A.fl |x|
  scale : ∀ {x}, A.fl x → ∀ d : ℤ, A.fl (x * 2 ^ d)
  mul_exact : ∀ {x}, A.fl x → ∀ d : ℤ, A.mul x (2 ^ d) = x * 2 ^ d
  div_exact : ∀ {x}, A.fl x → ∀ d : ℤ, A.div x (2 ^ d) = x / 2 ^ d
  add_fl : ∀ {x y}, A.fl x → A.fl y → A.fl (A.add x y)
  add_err : ∀ {x y}, A.fl x → A.fl y → |A.add x y - (x + y)| ≤ A.u * |x + y|
  mul_err : ∀ {x y}, A.fl x → A.fl y → |A.mul x y - x * y| ≤ A.u * |x * y|
  sq_fl : ∀ {x}, A.fl x → A.fl (A.sq x)
  sq_err : ∀ {x}, A.fl x → |A.sq x - x ^ 2| ≤ A.u * x ^ 2
  sqrt_fl : ∀ {x}, A.fl x → A.fl (A.sqrt x)
  sqrt_err : ∀ {x}, A.fl x → 0 ≤ x → |A.sqrt x - Real.sqrt x| ≤ A.u * Real.sqrt x

/-- The operations obtained by rounding the exact results. -/
noncomputable def roundArith (p : ℕ) (u : ℝ) (rnd : ℝ → ℝ) : FlArith :=
  ⟨Spec.IsFloat p, u, fun x y => rnd (x + y), fun x y => rnd (x * y), fun x y => rnd (x / y), fun x => rnd (x ^ 2), fun x => rnd (Real.sqrt x)⟩

/-- Every rounding to `p` bits that fixes the representable numbers and has a relative error of at most `u < 1` is covered. -/
theorem roundArith_laws {p : ℕ} {u : ℝ} {rnd : ℝ → ℝ} (h0 : 0 ≤ u) (h1 : u < 1) (hfl : ∀ x, Spec.IsFloat p (rnd x))
    (hfix : ∀ x, Spec.IsFloat p x → rnd x = x) (herr : ∀ x, |rnd x - x| ≤ u * |x|) : (roundArith p u rnd).Laws where
  u0 := h0
  u1 := h1
  zero := Spec.isFloat_zero p
  one := by have := Spec.isFloat_pow p 0; rw [zpow_zero] at this; exact this
  abs h := h.abs
  scale h d := h.scale d
  mul_exact h d := hfix _ (h.scale d)
  div_exact {x} h d := by
    refine hfix _ ?_
    have := h.scale (-d)
    rwa [zpow_neg, ← div_eq_mul_inv] at this
  add_fl _ _ := hfl _
  add_err _ _ := herr _
  mul_err _ _ := herr _
  sq_fl _ := hfl _
  sq_err {x} _ := by have := herr (x ^ 2); rwa [abs_of_nonneg (sq_nonneg x)] at this
  sqrt_fl _ := hfl _
  sqrt_err {x} _ _ := by have := herr (Real.sqrt x); rwa [abs_of_nonneg (Real.sqrt_nonneg x)] at this

/-- Exact arithmetic is covered, too. -/
noncomputable def exactArith : FlArith := ⟨fun _ => True, 0, (· + ·), (· * ·), (· / ·), (· ^ 2), Real.sqrt⟩

theorem exactArith_laws : exactArith.Laws := by
  constructor <;> simp [exactArith]

namespace FlArith

variable {A : FlArith} {n : ℕ} {tiny conv : ℝ} {fuel : ℕ}

/-! ## the loops are exact -/

theorem Laws.mul_two (hA : A.Laws) {x : ℝ} (h : A.fl x) : A.mul x 2 = x * 2 ∧ A.fl (x * 2) := by
  have := hA.mul_exact h 1
  have h2 := hA.scale h 1
  rw [zpow_one] at this h2
  exact ⟨this, h2⟩

theorem Laws.div_two (hA : A.Laws) {x : ℝ} (h : A.fl x) : A.div x 2 = x / 2 ∧ A.fl (x / 2) := by
  have := hA.div_exact h 1
  have h2 := hA.scale h (-1)
  rw [zpow_one] at this
  rw [zpow_neg_one, ← div_eq_mul_inv] at h2
  exact ⟨this, h2⟩

structure FlState (A : FlArith) (s : FCR) : Prop where
  f : A.fl s.f
  c : A.fl s.c
  r : A.fl s.r

theorem growLoop_eq (hA : A.Laws) : ∀ (fuel : ℕ) (s : FCR), FlState A s → A.growLoop fuel s = CasSph.growLoop fuel s ∧
    ∀ t, CasSph.growLoop fuel s = some t → FlState A t := by
  intro fuel
  induction fuel with
  | zero => intro s _; exact ⟨rfl, by simp [CasSph.growLoop, whileLoop]⟩
  | succ k ih =>
    intro s hs
    obtain ⟨e1, f1⟩ := hA.mul_two hs.f
    obtain ⟨e2, f2⟩ := hA.mul_two hs.c
    obtain ⟨e3, f3⟩ := hA.div_two hs.r
    obtain ⟨i1, i2⟩ := ih ⟨s.f * 2, s.c * 2, s.r / 2⟩ ⟨f1, f2, f3⟩
    unfold growLoop CasSph.growLoop at i1 ⊢
    unfold CasSph.growLoop at i2
    unfold whileLoop
    simp only [e1, e2, e3, Option.bind_some]
    split_ifs with hc
    · exact ⟨i1, i2⟩
    · refine ⟨rfl, fun t ht => ?_⟩
      cases ht
      exact hs

theorem shrinkLoop_eq (hA : A.Laws) : ∀ (fuel : ℕ) (s : FCR), FlState A s → A.shrinkLoop fuel s = CasSph.shrinkLoop fuel s ∧
    ∀ t, CasSph.shrinkLoop fuel s = some t → FlState A t := by
  intro fuel
  induction fuel with
  | zero => intro s _; exact ⟨rfl, by simp [CasSph.shrinkLoop, whileLoop]⟩
  | succ k ih =>
    intro s hs
    obtain ⟨e1, f1⟩ := hA.div_two hs.f
    obtain ⟨e2, f2⟩ := hA.div_two hs.c
    obtain ⟨e3, f3⟩ := hA.mul_two hs.r
    obtain ⟨i1, i2⟩ := ih ⟨s.f / 2, s.c / 2, s.r * 2⟩ ⟨f1, f2, f3⟩
    unfold shrinkLoop CasSph.shrinkLoop at i1 ⊢
    unfold CasSph.shrinkLoop at i2
    unfold whileLoop
    simp only [e1, e2, e3, Option.bind_some]
    split_ifs with hc
    · exact ⟨i1, i2⟩
    · refine ⟨rfl, fun t ht => ?_⟩
      cases ht
      exact hs

/-- All entries are representable. -/
def FlMat (A : FlArith) (M : Matrix (Fin n) (Fin n) ℝ) : Prop := ∀ j k, A.fl (M j k)

theorem scaleIndex_eq (hA : A.Laws) {M : Matrix (Fin n) (Fin n) ℝ} (hM : FlMat A M) (i : Fin n) (d : ℤ) :
    A.scaleIndex M i (2 ^ d) = CasSph.scaleIndex M i (2 ^ d) ∧ FlMat A (CasSph.scaleIndex M i (2 ^ d)) := by
  have dv : ∀ {x}, A.fl x → A.fl (x / 2 ^ d) := fun h => by
    have := hA.scale h (-d)
    rwa [zpow_neg, ← div_eq_mul_inv] at this
  constructor
  · funext j k
    unfold scaleIndex CasSph.scaleIndex
    simp only
    split_ifs
    · rw [hA.mul_exact (hM j k), hA.div_exact (hA.scale (hM j k) d)]
    · rw [hA.div_exact (hM j k)]
    · rw [hA.mul_exact (hM j k)]
    · rfl
  · intro j k
    unfold CasSph.scaleIndex
    simp only
    split_ifs
    · exact dv (hA.scale (hM j k) d)
    · exact dv (hM j k)
    · exact hA.scale (hM j k) d
    · exact hM j k

/-! ## rounding errors -/

theorem rel_bounds {u x y : ℝ} (h : |y - x| ≤ u * |x|) (hx : 0 ≤ x) : (1 - u) * x ≤ y ∧ y ≤ (1 + u) * x := by
  rw [abs_of_nonneg hx, abs_le] at h
  constructor <;> linarith

theorem rel_bounds' {u x y : ℝ} (h : |y - x| ≤ u * x) : (1 - u) * x ≤ y ∧ y ≤ (1 + u) * x := by
  rw [abs_le] at h
  constructor <;> linarith

theorem Laws.lo (hA : A.Laws) : 0 < 1 - A.u ∧ 1 - A.u ≤ 1 := ⟨by linarith [hA.u1], by linarith [hA.u0]⟩

theorem foldl_bounds (hA : A.Laws) (i : Fin n) {x : Fin n → ℝ} (hx : ∀ j, A.fl (x j)) : ∀ (l : List (Fin n)) (acc S : ℝ) (k : ℕ),
    A.fl acc → 0 ≤ S → (1 - A.u) ^ (k + 1) * S ≤ acc → acc ≤ (1 + A.u) ^ (k + 1) * S →
    A.fl (l.foldl (fun c j => if j = i then c else A.add c (A.sq |x j|)) acc) ∧
    (1 - A.u) ^ (k + l.length + 1) * (S + (l.map fun j => if j = i then 0 else |x j| ^ 2).sum) ≤
      l.foldl (fun c j => if j = i then c else A.add c (A.sq |x j|)) acc ∧
    l.foldl (fun c j => if j = i then c else A.add c (A.sq |x j|)) acc ≤
      (1 + A.u) ^ (k + l.length + 1) * (S + (l.map fun j => if j = i then 0 else |x j| ^ 2).sum) := by
  obtain ⟨l0, l1⟩ := hA.lo
  have h1 : 1 ≤ 1 + A.u := by linarith [hA.u0]
  intro l
  induction l with
  | nil => intro acc S k h0 _ h2 h3; simpa using ⟨h0, h2, h3⟩
  | cons j l ih =>
    intro acc S k h0 hS h2 h3
    have hlow : (1 - A.u) ^ (k + 1 + 1) * S ≤ acc :=
      (mul_le_mul_of_nonneg_right (pow_le_pow_of_le_one l0.le l1 (by omega)) hS).trans h2
    have hhigh : acc ≤ (1 + A.u) ^ (k + 1 + 1) * S := h3.trans (mul_le_mul_of_nonneg_right (pow_le_pow_right₀ h1 (by omega)) hS)
    rw [List.foldl_cons, List.map_cons, List.sum_cons, List.length_cons]
    have ek : k + (l.length + 1) + 1 = k + 1 + l.length + 1 := by omega
    rw [ek]
    by_cases hj : j = i
    · rw [if_pos hj, if_pos hj, zero_add]
      exact ih acc S (k + 1) h0 hS hlow hhigh
    · rw [if_neg hj, if_neg hj, ← add_assoc]
      obtain ⟨s1, s2⟩ := rel_bounds' (hA.sq_err (hA.abs (hx j)))
      have hq := sq_nonneg |x j|
      have hacc : 0 ≤ acc := le_trans (by positivity) h2
      have hsq : 0 ≤ A.sq |x j| := le_trans (by positivity) s1
      obtain ⟨a1, a2⟩ := rel_bounds (hA.add_err h0 (hA.sq_fl (hA.abs (hx j)))) (add_nonneg hacc hsq)
      refine ih _ _ (k + 1) (hA.add_fl h0 (hA.sq_fl (hA.abs (hx j)))) (by positivity) ?_ ?_
      · refine le_trans ?_ a1
        rw [pow_succ', mul_assoc]
        refine mul_le_mul_of_nonneg_left ?_ l0.le
        have : (1 - A.u) ^ (k + 1) ≤ 1 - A.u := by
          simpa using pow_le_pow_of_le_one l0.le l1 (by omega : 1 ≤ k + 1)
        have := mul_le_mul_of_nonneg_right this hq
        rw [mul_add]
        linarith
      · refine a2.trans ?_
        rw [pow_succ' (1 + A.u), mul_assoc]
        refine mul_le_mul_of_nonneg_left ?_ (by linarith)
        have : 1 + A.u ≤ (1 + A.u) ^ (k + 1) := by
          simpa using pow_le_pow_right₀ h1 (by omega : 1 ≤ k + 1)
        have := mul_le_mul_of_nonneg_right this hq
        rw [mul_add]
        linarith

theorem colSq_bounds (hA : A.Laws) {M : Matrix (Fin n) (Fin n) ℝ} (hM : FlMat A M) (i : Fin n) :
    A.fl (A.colSq M i) ∧ (1 - A.u) ^ (n + 1) * CasSph.colSq M i ≤ A.colSq M i ∧ A.colSq M i ≤ (1 + A.u) ^ (n + 1) * CasSph.colSq M i := by
  have := foldl_bounds hA i (x := fun j => M j i) (fun j => hM j i) (List.finRange n) 0 0 0 hA.zero le_rfl (by simp) (by simp)
  simp only [zero_add, List.length_finRange] at this
  unfold colSq CasSph.colSq
  rw [Fin.sum_univ_def]
  exact this

theorem rowSq_bounds (hA : A.Laws) {M : Matrix (Fin n) (Fin n) ℝ} (hM : FlMat A M) (i : Fin n) :
    A.fl (A.rowSq M i) ∧ (1 - A.u) ^ (n + 1) * CasSph.rowSq M i ≤ A.rowSq M i ∧ A.rowSq M i ≤ (1 + A.u) ^ (n + 1) * CasSph.rowSq M i := by
  have := foldl_bounds hA i (x := fun j => M i j) (fun j => hM i j) (List.finRange n) 0 0 0 hA.zero le_rfl (by simp) (by simp)
  simp only [zero_add, List.length_finRange] at this
  unfold rowSq CasSph.rowSq
  rw [Fin.sum_univ_def]
  exact this

/-- Bounds of the two sides of the test of convergence. -/
theorem test_bounds (hA : A.Laws) {C R c r f : ℝ} {k : ℕ} (fC : A.fl C) (fR : A.fl R) (hf : 0 < f) (fc : A.fl (A.sqrt C * f)) (fr : A.fl (A.sqrt R / f))
    (hc : 0 ≤ c) (hr : 0 ≤ r) (c1 : (1 - A.u) ^ k * c ≤ C) (c2 : C ≤ (1 + A.u) ^ k * c) (r1 : (1 - A.u) ^ k * r ≤ R) (r2 : R ≤ (1 + A.u) ^ k * r)
    (fconv : A.fl conv) (hconv : 0 ≤ conv) :
    (1 - A.u) ^ (k + 4) * (c * f ^ 2 + r / f ^ 2) ≤ A.add (A.sq (A.sqrt C * f)) (A.sq (A.sqrt R / f)) ∧
    A.add (A.sq (A.sqrt C * f)) (A.sq (A.sqrt R / f)) ≤ (1 + A.u) ^ 2 * ((A.sqrt C * f) ^ 2 + (A.sqrt R / f) ^ 2) ∧
    A.sqrt C * A.sqrt R ≤ (1 + A.u) ^ (k + 2) * (Real.sqrt c * Real.sqrt r) ∧
    (1 - A.u) ^ (k + 2) * (conv * (c + r)) ≤ A.mul conv (A.add C R) ∧
    A.mul conv (A.add C R) ≤ (1 + A.u) ^ (k + 2) * (conv * (c + r)) := by
  obtain ⟨l0, l1⟩ := hA.lo
  have h1 : 1 ≤ 1 + A.u := by linarith [hA.u0]
  have hC : 0 ≤ C := le_trans (by positivity) c1
  have hR : 0 ≤ R := le_trans (by positivity) r1
  obtain ⟨p1, p2⟩ := rel_bounds' (hA.sqrt_err fC hC)
  obtain ⟨q1, q2⟩ := rel_bounds' (hA.sqrt_err fR hR)
  have p0 : 0 ≤ A.sqrt C := le_trans (by positivity) p1
  have q0 : 0 ≤ A.sqrt R := le_trans (by positivity) q1
  obtain ⟨s1, s2⟩ := rel_bounds' (hA.sq_err fc)
  obtain ⟨t1, t2⟩ := rel_bounds' (hA.sq_err fr)
  have s0 : 0 ≤ A.sq (A.sqrt C * f) := le_trans (by positivity) s1
  have t0 : 0 ≤ A.sq (A.sqrt R / f) := le_trans (by positivity) t1
  obtain ⟨a1, a2⟩ := rel_bounds (hA.add_err (hA.sq_fl fc) (hA.sq_fl fr)) (add_nonneg s0 t0)
  obtain ⟨b1, b2⟩ := rel_bounds (hA.add_err fC fR) (add_nonneg hC hR)
  have b0 : 0 ≤ A.add C R := le_trans (by positivity) b1
  obtain ⟨m1, m2⟩ := rel_bounds (hA.mul_err fconv (hA.add_fl fC fR)) (mul_nonneg hconv b0)
  refine ⟨?_, ?_, ?_, ?_, ?_⟩
  · have hp : (1 - A.u) ^ (k + 2) * (c * f ^ 2) ≤ (A.sqrt C * f) ^ 2 := by
      have : ((1 - A.u) * Real.sqrt C) ^ 2 ≤ A.sqrt C ^ 2 := pow_le_pow_left₀ (by positivity) p1 2
      rw [mul_pow, Real.sq_sqrt hC] at this
      rw [mul_pow]
      calc (1 - A.u) ^ (k + 2) * (c * f ^ 2) = (1 - A.u) ^ 2 * ((1 - A.u) ^ k * c) * f ^ 2 := by ring
        _ ≤ (1 - A.u) ^ 2 * C * f ^ 2 := by gcongr
        _ ≤ _ := by gcongr
    have hq : (1 - A.u) ^ (k + 2) * (r / f ^ 2) ≤ (A.sqrt R / f) ^ 2 := by
      have : ((1 - A.u) * Real.sqrt R) ^ 2 ≤ A.sqrt R ^ 2 := pow_le_pow_left₀ (by positivity) q1 2
      rw [mul_pow, Real.sq_sqrt hR] at this
      rw [div_pow]
      calc (1 - A.u) ^ (k + 2) * (r / f ^ 2) = (1 - A.u) ^ 2 * ((1 - A.u) ^ k * r) / f ^ 2 := by ring
        _ ≤ (1 - A.u) ^ 2 * R / f ^ 2 := by gcongr
        _ ≤ _ := by gcongr
    calc (1 - A.u) ^ (k + 4) * (c * f ^ 2 + r / f ^ 2)
        = (1 - A.u) * ((1 - A.u) * ((1 - A.u) ^ (k + 2) * (c * f ^ 2)) + (1 - A.u) * ((1 - A.u) ^ (k + 2) * (r / f ^ 2))) := by ring
      _ ≤ (1 - A.u) * ((1 - A.u) * (A.sqrt C * f) ^ 2 + (1 - A.u) * (A.sqrt R / f) ^ 2) := by gcongr
      _ ≤ (1 - A.u) * (A.sq (A.sqrt C * f) + A.sq (A.sqrt R / f)) := by gcongr
      _ ≤ _ := a1
  · refine a2.trans ?_
    rw [pow_two (1 + A.u), mul_assoc]
    refine mul_le_mul_of_nonneg_left ?_ (by linarith)
    linarith
  · have e1 : Real.sqrt C * Real.sqrt R ≤ (1 + A.u) ^ k * (Real.sqrt c * Real.sqrt r) := by
      rw [← Real.sqrt_mul hC, ← Real.sqrt_mul hc]
      refine Real.sqrt_le_iff.mpr ⟨by positivity, ?_⟩
      rw [mul_pow, Real.sq_sqrt (by positivity)]
      calc C * R ≤ ((1 + A.u) ^ k * c) * ((1 + A.u) ^ k * r) := mul_le_mul c2 r2 hR (by positivity)
        _ = _ := by ring
    calc A.sqrt C * A.sqrt R ≤ ((1 + A.u) * Real.sqrt C) * ((1 + A.u) * Real.sqrt R) := mul_le_mul p2 q2 q0 (by positivity)
      _ = (1 + A.u) ^ 2 * (Real.sqrt C * Real.sqrt R) := by ring
      _ ≤ (1 + A.u) ^ 2 * ((1 + A.u) ^ k * (Real.sqrt c * Real.sqrt r)) := by gcongr
      _ = _ := by ring
  · calc (1 - A.u) ^ (k + 2) * (conv * (c + r)) = (1 - A.u) * (conv * ((1 - A.u) * ((1 - A.u) ^ k * c + (1 - A.u) ^ k * r))) := by ring
      _ ≤ (1 - A.u) * (conv * ((1 - A.u) * (C + R))) := by gcongr
      _ ≤ (1 - A.u) * (conv * A.add C R) := by gcongr
      _ ≤ _ := m1
  · calc A.mul conv (A.add C R) ≤ (1 + A.u) * (conv * A.add C R) := m2
      _ ≤ (1 + A.u) * (conv * ((1 + A.u) * (C + R))) := by gcongr
      _ ≤ (1 + A.u) * (conv * ((1 + A.u) * ((1 + A.u) ^ k * c + (1 + A.u) ^ k * r))) := by gcongr
      _ = _ := by ring

/-! ## one index -/

theorem balanceIndex_cases (hA : A.Laws) (h0 : 0 ≤ tiny) {s t : Matrix (Fin n) (Fin n) ℝ × Bool} (hM : FlMat A s.1) {i : Fin n}
    (h : A.balanceIndex tiny fuel conv s i = some t) :
    (A.rowSq s.1 i ≤ tiny ∨ A.colSq s.1 i ≤ tiny) ∧ t = s ∨
    (tiny < A.rowSq s.1 i ∧ tiny < A.colSq s.1 i ∧ ∃ d : ℤ,
      A.fl (A.sqrt (A.colSq s.1 i) * 2 ^ d) ∧ A.fl (A.sqrt (A.rowSq s.1 i) / 2 ^ d) ∧
      A.sqrt (A.rowSq s.1 i) / 2 ^ d / 2 ≤ A.sqrt (A.colSq s.1 i) * 2 ^ d ∧ A.sqrt (A.colSq s.1 i) * 2 ^ d < A.sqrt (A.rowSq s.1 i) / 2 ^ d * 2 ∧
      ((A.add (A.sq (A.sqrt (A.colSq s.1 i) * 2 ^ d)) (A.sq (A.sqrt (A.rowSq s.1 i) / 2 ^ d)) < A.mul conv (A.add (A.colSq s.1 i) (A.rowSq s.1 i)) ∧
          t = (CasSph.scaleIndex s.1 i (2 ^ d), false)) ∨
       (A.mul conv (A.add (A.colSq s.1 i) (A.rowSq s.1 i)) ≤ A.add (A.sq (A.sqrt (A.colSq s.1 i) * 2 ^ d)) (A.sq (A.sqrt (A.rowSq s.1 i) / 2 ^ d)) ∧
          t = s))) := by
  obtain ⟨l0, l1⟩ := hA.lo
  obtain ⟨fc, c1, -⟩ := colSq_bounds hA hM i
  obtain ⟨fr, r1, -⟩ := rowSq_bounds hA hM i
  have hc0 : 0 ≤ A.colSq s.1 i := le_trans (mul_nonneg (by positivity) (colSq_nonneg _ _)) c1
  have hr0 : 0 ≤ A.rowSq s.1 i := le_trans (mul_nonneg (by positivity) (rowSq_nonneg _ _)) r1
  unfold balanceIndex at h
  simp only [abs_of_nonneg hc0, abs_of_nonneg hr0] at h
  split_ifs at h with hg
  · left; cases h; exact ⟨hg, rfl⟩
  · right
    push Not at hg
    refine ⟨hg.1, hg.2, ?_⟩
    have S0 : FlState A ⟨1, A.sqrt (A.colSq s.1 i), A.sqrt (A.rowSq s.1 i)⟩ := ⟨hA.one, hA.sqrt_fl fc, hA.sqrt_fl fr⟩
    rw [(growLoop_eq hA fuel _ S0).1] at h
    cases h1 : CasSph.growLoop fuel ⟨1, A.sqrt (A.colSq s.1 i), A.sqrt (A.rowSq s.1 i)⟩ with
    | none => simp [h1] at h
    | some s₁ =>
      simp only [h1, Option.bind_some] at h
      have S1 := (growLoop_eq hA fuel _ S0).2 _ h1
      rw [(shrinkLoop_eq hA fuel _ S1).1] at h
      cases h2 : CasSph.shrinkLoop fuel s₁ with
      | none => simp [h2] at h
      | some s₂ =>
        simp only [h2, Option.bind_some] at h
        have S2 := (shrinkLoop_eq hA fuel _ S1).2 _ h2
        have hr0 : Reach (A.sqrt (A.colSq s.1 i)) (A.sqrt (A.rowSq s.1 i)) ⟨1, A.sqrt (A.colSq s.1 i), A.sqrt (A.rowSq s.1 i)⟩ :=
          ⟨⟨0, by simp⟩, by simp, by simp⟩
        have g1 := growLoop_spec hr0 h1
        obtain ⟨⟨⟨d, hd⟩, hc, hr⟩, hlo, hhi⟩ := shrinkLoop_spec g1.1 g1.2 h2
        refine ⟨d, ?_⟩
        rw [← (scaleIndex_eq hA hM i d).1, ← hd]
        simp only [← hc, ← hr]
        refine ⟨S2.c, S2.r, hlo, hhi, ?_⟩
        split_ifs at h with hlt
        · left; cases h; exact ⟨hlt, rfl⟩
        · right; cases h; exact ⟨not_lt.1 hlt, rfl⟩

theorem balanceIndex_fl (hA : A.Laws) (h0 : 0 ≤ tiny) {s t : Matrix (Fin n) (Fin n) ℝ × Bool} (hM : FlMat A s.1) {i : Fin n}
    (h : A.balanceIndex tiny fuel conv s i = some t) : FlMat A t.1 ∧ PowSim s.1 t.1 ∧ (t.2 = true → t = s) := by
  rcases balanceIndex_cases hA h0 hM h with ⟨-, rfl⟩ | ⟨-, -, d, -, -, -, -, ⟨-, rfl⟩ | ⟨-, rfl⟩⟩
  · exact ⟨hM, .refl _, fun _ => rfl⟩
  · exact ⟨(scaleIndex_eq hA hM i d).2, .scaleIndex _ _ _, by simp⟩
  · exact ⟨hM, .refl _, fun _ => rfl⟩

theorem balanceIndex_dec (hA : A.Laws) (h0 : 0 ≤ tiny) (fconv : A.fl conv) (hconv : 0 ≤ conv)
    (hk : conv * (1 + A.u) ^ (n + 3) < (1 - A.u) ^ (n + 5)) {s t : Matrix (Fin n) (Fin n) ℝ × Bool} (hM : FlMat A s.1) {i : Fin n}
    (h : A.balanceIndex tiny fuel conv s i = some t) :
    t = s ∨ (t.2 = false ∧ offSq t.1 ≤ offSq s.1 -
      (1 - conv * (1 + A.u) ^ (n + 3) / (1 - A.u) ^ (n + 5)) * (2 * tiny / (1 + A.u) ^ (n + 1))) := by
  obtain ⟨l0, l1⟩ := hA.lo
  rcases balanceIndex_cases hA h0 hM h with ⟨-, rfl⟩ | ⟨h1, h2, d, fc, fr, -, -, ⟨hlt, rfl⟩ | ⟨-, rfl⟩⟩
  · exact .inl rfl
  · right
    refine ⟨rfl, ?_⟩
    have hf : (0 : ℝ) < 2 ^ d := by positivity
    obtain ⟨C0, c1, c2⟩ := colSq_bounds hA hM i
    obtain ⟨R0, r1, r2⟩ := rowSq_bounds hA hM i
    obtain ⟨b1, -, -, -, b2⟩ := test_bounds hA C0 R0 hf fc fr (colSq_nonneg s.1 i) (rowSq_nonneg s.1 i) c1 c2 r1 r2 fconv hconv
    rw [offSq_scale _ _ hf, offSq_split s.1 i]
    have hkey : CasSph.colSq s.1 i * (2 ^ d) ^ 2 + CasSph.rowSq s.1 i / (2 ^ d) ^ 2 ≤
        conv * (1 + A.u) ^ (n + 3) / (1 - A.u) ^ (n + 5) * (CasSph.colSq s.1 i + CasSph.rowSq s.1 i) := by
      rw [div_mul_eq_mul_div, le_div_iff₀ (by positivity)]
      have := (b1.trans hlt.le).trans b2
      have e1 : n + 1 + 4 = n + 5 := rfl
      have e2 : n + 1 + 2 = n + 3 := rfl
      rw [e1, e2] at this
      linarith
    have hsum : 2 * tiny / (1 + A.u) ^ (n + 1) ≤ CasSph.colSq s.1 i + CasSph.rowSq s.1 i := by
      have : 0 < 1 + A.u := by linarith [hA.u0]
      rw [div_le_iff₀ (by positivity)]
      linarith
    have hpos : 0 ≤ 1 - conv * (1 + A.u) ^ (n + 3) / (1 - A.u) ^ (n + 5) := by
      rw [sub_nonneg, div_le_one (by positivity)]
      exact hk.le
    have := mul_le_mul_of_nonneg_left hsum hpos
    nlinarith
  · exact .inl rfl

/-- From some fuel on the loop body has a result that does not depend on the fuel. -/
theorem balanceIndex_total (hA : A.Laws) (h0 : 0 ≤ tiny) (conv : ℝ) (s : Matrix (Fin n) (Fin n) ℝ × Bool) (hM : FlMat A s.1) (i : Fin n) :
    ∃ N t, ∀ fuel, N < fuel → A.balanceIndex tiny fuel conv s i = some t := by
  obtain ⟨l0, l1⟩ := hA.lo
  obtain ⟨fc, c1, -⟩ := colSq_bounds hA hM i
  obtain ⟨fr, r1, -⟩ := rowSq_bounds hA hM i
  have hc0 : 0 ≤ A.colSq s.1 i := le_trans (mul_nonneg (by positivity) (colSq_nonneg _ _)) c1
  have hr0 : 0 ≤ A.rowSq s.1 i := le_trans (mul_nonneg (by positivity) (rowSq_nonneg _ _)) r1
  by_cases hg : |A.rowSq s.1 i| ≤ tiny ∨ |A.colSq s.1 i| ≤ tiny
  · exact ⟨0, s, fun fuel _ => by unfold balanceIndex; simp only [if_pos hg]⟩
  · have hg' := hg
    push Not at hg'
    rw [abs_of_nonneg hc0, abs_of_nonneg hr0] at hg'
    have hpos : ∀ {x}, A.fl x → tiny < x → 0 < A.sqrt x := fun fx hx => by
      have hx0 := h0.trans_lt hx
      exact (mul_pos l0 (Real.sqrt_pos.2 hx0)).trans_le (rel_bounds' (hA.sqrt_err fx hx0.le)).1
    have hc := hpos fc hg'.2
    have hr := hpos fr hg'.1
    have S0 : FlState A ⟨1, A.sqrt (A.colSq s.1 i), A.sqrt (A.rowSq s.1 i)⟩ := ⟨hA.one, hA.sqrt_fl fc, hA.sqrt_fl fr⟩
    obtain ⟨N₁, h₁⟩ := growLoop_term ⟨1, A.sqrt (A.colSq s.1 i), A.sqrt (A.rowSq s.1 i)⟩ hc
    obtain ⟨s₁, hs₁⟩ := h₁ (N₁ + 1) (by omega)
    have hR : Reach (A.sqrt (A.colSq s.1 i)) (A.sqrt (A.rowSq s.1 i)) ⟨1, A.sqrt (A.colSq s.1 i), A.sqrt (A.rowSq s.1 i)⟩ :=
      ⟨⟨0, by simp⟩, by simp, by simp⟩
    have g1 := growLoop_spec hR hs₁
    have hr1 : 0 < s₁.r := by rw [g1.1.hr]; exact div_pos hr g1.1.fpos
    have S1 := (growLoop_eq hA _ _ S0).2 _ hs₁
    obtain ⟨N₂, h₂⟩ := shrinkLoop_term s₁ hr1
    obtain ⟨s₂, hs₂⟩ := h₂ (N₂ + 1) (by omega)
    have key : ∀ fuel, N₁ + 1 + N₂ < fuel → A.balanceIndex tiny fuel conv s i =
        if A.add (A.sq s₂.c) (A.sq s₂.r) < A.mul conv (A.add (A.colSq s.1 i) (A.rowSq s.1 i)) then some (A.scaleIndex s.1 i s₂.f, false) else some s := by
      intro fuel hf
      have e1 : CasSph.growLoop fuel ⟨1, A.sqrt (A.colSq s.1 i), A.sqrt (A.rowSq s.1 i)⟩ = some s₁ := whileLoop_mono (by omega) hs₁
      have e2 : CasSph.shrinkLoop fuel s₁ = some s₂ := whileLoop_mono (by omega) hs₂
      unfold balanceIndex
      simp only [if_neg hg]
      rw [(growLoop_eq hA fuel _ S0).1, e1, Option.bind_some, (shrinkLoop_eq hA fuel _ S1).1, e2, Option.bind_some]
    refine ⟨N₁ + 1 + N₂, if A.add (A.sq s₂.c) (A.sq s₂.r) < A.mul conv (A.add (A.colSq s.1 i) (A.rowSq s.1 i)) then (A.scaleIndex s.1 i s₂.f, false) else s,
      fun fuel hf => ?_⟩
    rw [key fuel hf]
    split_ifs <;> rfl

/-! ## sweeps -/

/-- Properties of the loop over the indices from those of one index. -/
theorem foldlM_index {step : Matrix (Fin n) (Fin n) ℝ × Bool → Fin n → Option (Matrix (Fin n) (Fin n) ℝ × Bool)}
    (hfl : ∀ s i t, FlMat A s.1 → step s i = some t → FlMat A t.1 ∧ PowSim s.1 t.1 ∧ (t.2 = true → t = s)) {δ : ℝ} (hδ : 0 ≤ δ) :
    ∀ (l : List (Fin n)) (s t : Matrix (Fin n) (Fin n) ℝ × Bool), FlMat A s.1 → l.foldlM step s = some t →
      FlMat A t.1 ∧ PowSim s.1 t.1 ∧ (t.2 = true → t = s ∧ ∀ i ∈ l, step s i = some s) ∧
      ((∀ s i t, FlMat A s.1 → step s i = some t → t = s ∨ (t.2 = false ∧ offSq t.1 ≤ offSq s.1 - δ)) →
        t = s ∨ (t.2 = false ∧ offSq t.1 ≤ offSq s.1 - δ)) := by
  intro l
  induction l with
  | nil =>
    intro s t hs h
    simp only [List.foldlM_nil] at h
    cases h
    exact ⟨hs, .refl _, fun _ => ⟨rfl, by simp⟩, fun _ => .inl rfl⟩
  | cons a l ih =>
    intro s t hs h
    rw [List.foldlM_cons] at h
    cases ha : step s a with
    | none => simp [ha] at h
    | some w =>
      rw [ha] at h
      obtain ⟨w1, w2, w3⟩ := hfl s a w hs ha
      obtain ⟨t1, t2, t3, t4⟩ := ih w t w1 h
      refine ⟨t1, w2.trans t2, fun ht => ?_, fun hd => ?_⟩
      · obtain ⟨e1, e2⟩ := t3 ht
        subst e1
        have := w3 ht
        subst this
        refine ⟨rfl, fun i hi => ?_⟩
        rcases List.mem_cons.1 hi with rfl | hi
        · exact ha
        · exact e2 i hi
      · rcases hd s a w hs ha with rfl | ⟨d1, d2⟩
        · exact t4 hd
        · rcases t4 hd with rfl | ⟨d3, d4⟩
          · exact .inr ⟨d1, d2⟩
          · exact .inr ⟨d3, by linarith⟩

theorem foldlM_total {step : ℕ → Matrix (Fin n) (Fin n) ℝ × Bool → Fin n → Option (Matrix (Fin n) (Fin n) ℝ × Bool)}
    (hfl : ∀ fuel s i t, FlMat A s.1 → step fuel s i = some t → FlMat A t.1)
    (ht : ∀ s i, FlMat A s.1 → ∃ N t, ∀ fuel, N < fuel → step fuel s i = some t) :
    ∀ (l : List (Fin n)) (s : Matrix (Fin n) (Fin n) ℝ × Bool), FlMat A s.1 → ∃ N t, FlMat A t.1 ∧ ∀ fuel, N < fuel → l.foldlM (step fuel) s = some t := by
  intro l
  induction l with
  | nil => intro s hs; exact ⟨0, s, hs, fun fuel _ => rfl⟩
  | cons a l ih =>
    intro s hs
    obtain ⟨N₁, w, h₁⟩ := ht s a hs
    obtain ⟨N₂, t, h2, h₃⟩ := ih w (hfl _ _ _ _ hs (h₁ (N₁ + 1) (by omega)))
    refine ⟨N₁ + N₂, t, h2, fun fuel hf => ?_⟩
    rw [List.foldlM_cons, h₁ fuel (by omega)]
    exact h₃ fuel (by omega)

theorem loop_total {sweep : ℕ → Matrix (Fin n) (Fin n) ℝ → Option (Matrix (Fin n) (Fin n) ℝ × Bool)} {δ : ℝ}
    (ht : ∀ M, FlMat A M → ∃ N t, FlMat A t.1 ∧ ∀ fuel, N < fuel → sweep fuel M = some t)
    (hd : ∀ fuel M t, FlMat A M → sweep fuel M = some t → t.2 = true ∨ offSq t.1 ≤ offSq M - δ) :
    ∀ (K : ℕ) (s : Matrix (Fin n) (Fin n) ℝ × Bool), FlMat A s.1 → offSq s.1 < K * δ →
      ∃ N, ∀ fuel', N < fuel' → ∃ t, ∀ fuel, N < fuel →
        whileLoop (fun s : Matrix (Fin n) (Fin n) ℝ × Bool => s.2 = false) (fun s => sweep fuel' s.1) fuel s = some t := by
  intro K
  induction K with
  | zero => intro s _ h; exact absurd h (by simpa using offSq_nonneg s.1)
  | succ K ih =>
    intro s hs' h
    by_cases hs : s.2 = false
    · obtain ⟨N₁, t, t1, h₁⟩ := ht s.1 hs'
      by_cases ht : t.2 = true
      · refine ⟨N₁ + 1, fun fuel' hf' => ⟨t, fun fuel hf => ?_⟩⟩
        obtain ⟨k, rfl⟩ : ∃ k, fuel = k + 2 := ⟨fuel - 2, by omega⟩
        unfold whileLoop
        rw [if_pos hs, h₁ fuel' (by omega)]
        simp only [Option.bind_some]
        unfold whileLoop
        rw [if_neg (by simp [ht])]
      · have hdec := (hd _ _ _ hs' (h₁ (N₁ + 1) (by omega))).resolve_left ht
        obtain ⟨N₂, h₂⟩ := ih t t1 (by push_cast at h; linarith)
        refine ⟨N₁ + N₂ + 1, fun fuel' hf' => ?_⟩
        obtain ⟨u, hu⟩ := h₂ fuel' (by omega)
        refine ⟨u, fun fuel hf => ?_⟩
        obtain ⟨k, rfl⟩ : ∃ k, fuel = k + 1 := ⟨fuel - 1, by omega⟩
        unfold whileLoop
        rw [if_pos hs, h₁ fuel' (by omega)]
        exact hu k (by omega)
    · refine ⟨0, fun fuel' _ => ⟨s, fun fuel hf => ?_⟩⟩
      obtain ⟨k, rfl⟩ : ∃ k, fuel = k + 1 := ⟨fuel - 1, by omega⟩
      unfold whileLoop
      rw [if_neg hs]

end FlArith

end CasSph
