import Verif.Lemmas.FloatBalance
import Verif.Props.LinAlg

/-! # C110: `balance` in floating-point arithmetic -/

namespace CasSph

open scoped Classical
open Spec

namespace FlArith

variable {A : FlArith} {n : ℕ} {tiny conv : ℝ} {fuel : ℕ}

theorem sweep_spec (hA : A.Laws) (h0 : 0 ≤ tiny) {M : Matrix (Fin n) (Fin n) ℝ} (hM : FlMat A M) {t : Matrix (Fin n) (Fin n) ℝ × Bool}
    (h : A.balanceSweep tiny fuel conv M = some t) :
    FlMat A t.1 ∧ PowSim M t.1 ∧ (t.2 = true → ∀ i, A.balanceIndex tiny fuel conv t i = some t) := by
  obtain ⟨h1, h2, h3, -⟩ := foldlM_index (fun s i t hs h => balanceIndex_fl hA h0 hs h) le_rfl _ _ _ hM h
  refine ⟨h1, h2, fun ht i => ?_⟩
  obtain ⟨e, h⟩ := h3 ht
  rw [e]
  exact h i (List.mem_finRange i)

theorem balance_spec (hA : A.Laws) (h0 : 0 ≤ tiny) {M B : Matrix (Fin n) (Fin n) ℝ} (hM : FlMat A M) (h : A.balance tiny fuel conv M = some B) :
    FlMat A B ∧ PowSim M B ∧ ∀ i, A.balanceIndex tiny fuel conv (B, true) i = some (B, true) := by
  unfold balance at h
  rw [Option.map_eq_some_iff] at h
  obtain ⟨t, ht, rfl⟩ := h
  have := whileLoop_inv (fun s : Matrix (Fin n) (Fin n) ℝ × Bool => FlMat A s.1 ∧ PowSim M s.1 ∧
      (s.2 = true → ∀ i, A.balanceIndex tiny fuel conv s i = some s))
    (fun s t hs _ hb => by
      obtain ⟨h1, h2, h3⟩ := sweep_spec hA h0 hs.1 hb
      exact ⟨h1, hs.2.1.trans h2, h3⟩) _ _ _ ⟨hM, .refl _, by simp⟩ ht
  have h2 : t.2 = true := by simpa using this.2
  refine ⟨this.1.1, this.1.2.1, ?_⟩
  have h3 := this.1.2.2 h2
  have e : t = (t.1, true) := by rw [← h2]
  rw [← e]
  exact h3

end FlArith

theorem PowSim.invariants {n : ℕ} {M B : Matrix (Fin n) (Fin n) ℝ} (hs : PowSim M B) :
    B.det = M.det ∧ B.trace = M.trace ∧ B.charpoly = M.charpoly := by
  refine ⟨hs.det, ?_, ?_⟩
  · obtain ⟨d, hd⟩ := hs
    unfold Matrix.trace
    refine Finset.sum_congr rfl fun i _ => ?_
    rw [Matrix.diag_apply, hd, Matrix.diag_apply, mul_div_cancel_right₀ _ (by positivity)]
  · obtain ⟨d, rfl⟩ := hs.eq_conj
    let U : (Matrix (Fin n) (Fin n) ℝ)ˣ :=
      ⟨Matrix.diagonal (fun i => ((2 : ℝ) ^ d i)⁻¹), Matrix.diagonal (fun i => (2 : ℝ) ^ d i),
        PowSim.isUnit_diag d, mul_eq_one_comm.1 (PowSim.isUnit_diag d)⟩
    have := Matrix.charpoly_units_conj U M
    rw [← Matrix.coe_units_inv] at this
    exact this

/-- **C110 (a).** Balancing commits no rounding error: whatever `balance` returns in floating-point arithmetic is an exact power-of-two diagonal
similarity of its argument, with representable entries and exactly the same determinant, trace and characteristic polynomial. -/
theorem C110_similarity {A : FlArith} (hA : A.Laws) {n fuel : ℕ} {tiny conv : ℝ} (h0 : 0 ≤ tiny) {M B : Matrix (Fin n) (Fin n) ℝ}
    (hM : ∀ j k, A.fl (M j k)) (h : A.balance tiny fuel conv M = some B) :
    (∃ d : Fin n → ℤ, B = Matrix.diagonal (fun i => ((2 : ℝ) ^ d i)⁻¹) * M * Matrix.diagonal (fun i => (2 : ℝ) ^ d i)) ∧
    B.det = M.det ∧ B.trace = M.trace ∧ B.charpoly = M.charpoly ∧ ∀ j k, A.fl (B j k) := by
  obtain ⟨h1, h2, -⟩ := FlArith.balance_spec hA h0 hM h
  obtain ⟨i1, i2, i3⟩ := h2.invariants
  exact ⟨h2.eq_conj, i1, i2, i3, h1⟩

/-- **C110 (b).** It returns as long as the rounding errors of sums of `n` terms do not bridge the gap between `conv` and 1. -/
theorem C110_terminates {A : FlArith} (hA : A.Laws) {n : ℕ} {tiny conv : ℝ} (h0 : 0 < tiny) (fconv : A.fl conv) (hconv : 0 ≤ conv)
    (hk : conv * (1 + A.u) ^ (n + 3) < (1 - A.u) ^ (n + 5)) {M : Matrix (Fin n) (Fin n) ℝ} (hM : ∀ j k, A.fl (M j k)) :
    ∃ N, ∀ fuel, N < fuel → ∃ B, A.balance tiny fuel conv M = some B := by
  obtain ⟨l0, l1⟩ := hA.lo
  have hu := hA.u0
  set δ := (1 - conv * (1 + A.u) ^ (n + 3) / (1 - A.u) ^ (n + 5)) * (2 * tiny / (1 + A.u) ^ (n + 1)) with hδ
  have δ0 : 0 < δ := by
    refine mul_pos ?_ (by positivity)
    rw [sub_pos, div_lt_one (by positivity)]
    exact hk
  obtain ⟨K, hK⟩ := exists_nat_gt (offSq M / δ)
  rw [div_lt_iff₀ δ0] at hK
  obtain ⟨N, hN⟩ := FlArith.loop_total (A := A) (sweep := fun fuel M => A.balanceSweep tiny fuel conv M) (δ := δ)
    (fun M hM => FlArith.foldlM_total (fun fuel s i t hs h => (FlArith.balanceIndex_fl hA h0.le hs h).1)
      (fun s i hs => FlArith.balanceIndex_total hA h0.le conv s hs i) _ (M, true) hM)
    (fun fuel M t hM h => by
      rcases (FlArith.foldlM_index (fun s i t hs h => FlArith.balanceIndex_fl hA h0.le hs h) δ0.le _ (M, true) _ hM h).2.2.2
        (fun s i t hs h => FlArith.balanceIndex_dec hA h0.le fconv hconv hk hs h) with h | h
      · left; rw [h]
      · right; exact h.2)
    K (M, false) hM hK
  refine ⟨N, fun fuel hf => ?_⟩
  obtain ⟨t, ht⟩ := hN fuel hf
  refine ⟨t.1, ?_⟩
  unfold FlArith.balance
  rw [ht fuel hf]
  rfl

/-- **C110 (c).** On return row and column norms are balanced up to the rounding errors of the test. -/
theorem C110_balanced {A : FlArith} (hA : A.Laws) {n fuel : ℕ} {tiny conv : ℝ} (h0 : 0 ≤ tiny) (fconv : A.fl conv) (hconv : 0 ≤ conv)
    {M B : Matrix (Fin n) (Fin n) ℝ} (hM : ∀ j k, A.fl (M j k)) (h : A.balance tiny fuel conv M = some B) (i : Fin n)
    (hr : tiny < (1 - A.u) ^ (n + 1) * offRow B i) (hc : tiny < (1 - A.u) ^ (n + 1) * offCol B i) :
    (1 - A.u) ^ (n + 3) * (conv * (offCol B i + offRow B i)) ≤
      5 / 2 * (1 + A.u) ^ (n + 5) * (Real.sqrt (offCol B i) * Real.sqrt (offRow B i)) := by
  obtain ⟨fB, -, hex⟩ := FlArith.balance_spec hA h0 hM h
  rw [← rowSq_eq] at hr ⊢
  rw [← colSq_eq] at hc ⊢
  obtain ⟨C0, c1, c2⟩ := FlArith.colSq_bounds hA fB i
  obtain ⟨R0, r1, r2⟩ := FlArith.rowSq_bounds hA fB i
  rcases FlArith.balanceIndex_cases hA h0 fB (hex i) with ⟨hg, -⟩ | ⟨-, -, d, fc, fr, hlo, hhi, ⟨-, hh⟩ | ⟨hge, -⟩⟩
  · simp only at hg
    rcases hg with hg | hg
    · linarith
    · linarith
  · simp at hh
  · simp only at hge hlo hhi fc fr
    have hf : (0 : ℝ) < 2 ^ d := by positivity
    obtain ⟨-, b1, b2, b3, -⟩ := FlArith.test_bounds hA C0 R0 hf fc fr (colSq_nonneg B i) (rowSq_nonneg B i) c1 c2 r1 r2 fconv hconv
    set x := A.sqrt (A.colSq B i) * 2 ^ d
    set y := A.sqrt (A.rowSq B i) / 2 ^ d
    have hxy : x * y = A.sqrt (A.colSq B i) * A.sqrt (A.rowSq B i) := by
      simp only [x, y]; field_simp
    have key : x ^ 2 + y ^ 2 ≤ 5 / 2 * (x * y) := by
      nlinarith [mul_nonneg (sub_nonneg.2 hhi.le) (sub_nonneg.2 hlo)]
    rw [hxy] at key
    have hu := hA.u0
    calc (1 - A.u) ^ (n + 3) * (conv * (CasSph.colSq B i + CasSph.rowSq B i)) ≤ _ := b3
      _ ≤ _ := hge
      _ ≤ (1 + A.u) ^ 2 * (x ^ 2 + y ^ 2) := b1
      _ ≤ (1 + A.u) ^ 2 * (5 / 2 * ((1 + A.u) ^ (n + 1 + 2) * (Real.sqrt (CasSph.colSq B i) * Real.sqrt (CasSph.rowSq B i)))) := by
          refine mul_le_mul_of_nonneg_left (key.trans ?_) (by positivity)
          linarith
      _ = _ := by ring

/-- The exact model of C01–C05 is the special case without rounding. -/
theorem C110_exact {n fuel : ℕ} {conv : ℝ} (M : Matrix (Fin n) (Fin n) ℝ) : exactArith.balance balanceTiny fuel conv M = balance fuel conv M := by
  have hfold : ∀ (i : Fin n) (x : Fin n → ℝ) (l : List (Fin n)) (acc : ℝ),
      l.foldl (fun c j => if j = i then c else exactArith.add c (exactArith.sq |x j|)) acc = acc + (l.map fun j => if j = i then 0 else |x j| ^ 2).sum := by
    intro i x l
    induction l with
    | nil => intro acc; simp
    | cons j l ih =>
      intro acc
      rw [List.foldl_cons, ih, List.map_cons, List.sum_cons]
      split_ifs
      · ring
      · simp only [exactArith]; ring
  have hc : ∀ (M : Matrix (Fin n) (Fin n) ℝ) i, exactArith.colSq M i = colSq M i := fun M i => by
    unfold FlArith.colSq colSq
    rw [hfold i (fun j => M j i), zero_add, Fin.sum_univ_def]
  have hr : ∀ (M : Matrix (Fin n) (Fin n) ℝ) i, exactArith.rowSq M i = rowSq M i := fun M i => by
    unfold FlArith.rowSq rowSq
    rw [hfold i (fun j => M i j), zero_add, Fin.sum_univ_def]
  have hi : (fun s i => exactArith.balanceIndex balanceTiny fuel conv s i) = (fun s i => balanceIndex (n := n) fuel conv s i) := by
    funext s i
    unfold FlArith.balanceIndex balanceIndex
    simp only [hc, hr]
    rfl
  unfold FlArith.balance balance
  congr 2
  funext s
  unfold FlArith.balanceSweep balanceSweep
  exact congrArg (fun f => List.foldlM f (s.1, true) (List.finRange n)) hi

/-! ## double precision -/

theorem bernoulli_lo {u : ℝ} (h0 : 0 ≤ u) (h1 : u < 1) (k : ℕ) : 1 - k * u ≤ (1 - u) ^ k := by
  have := one_add_mul_le_pow (a := -u) (by linarith) k
  rw [← sub_eq_add_neg] at this
  linarith

theorem pow_inv_hi {u : ℝ} (h0 : 0 ≤ u) (h1 : u < 1) (k : ℕ) : (1 + u) ^ k * (1 - u) ^ k ≤ 1 := by
  rw [← mul_pow]
  refine pow_le_one₀ (mul_nonneg (by linarith) (by linarith)) ?_
  nlinarith

/-- A rounding of the real numbers to 53 bits: representable results, representable numbers are not changed, relative error at most `2^-52`
(all rounding modes of IEEE 754, apart from overflow and underflow). -/
structure Spec.DoubleRounding (rnd : ℝ → ℝ) : Prop where
  isFloat : ∀ x, IsFloat 53 (rnd x)
  fix : ∀ x, IsFloat 53 x → rnd x = x
  err : ∀ x, |rnd x - x| ≤ 2 ^ (-52 : ℤ) * |x|

noncomputable abbrev doubleArith (rnd : ℝ → ℝ) : FlArith := roundArith 53 (2 ^ (-52 : ℤ)) rnd

theorem doubleArith_laws {rnd : ℝ → ℝ} (h : Spec.DoubleRounding rnd) : (doubleArith rnd).Laws :=
  roundArith_laws (by positivity) (by norm_num) h.isFloat h.fix h.err

theorem double_factor {n : ℕ} (hn : n ≤ 10 ^ 13) : 995 / 1000 ≤ (1 - (2 : ℝ) ^ (-52 : ℤ)) ^ (2 * n + 8) := by
  have := bernoulli_lo (u := (2 : ℝ) ^ (-52 : ℤ)) (by positivity) (by norm_num) (2 * n + 8)
  refine le_trans ?_ this
  have hn' : (n : ℝ) ≤ 10 ^ 13 := by exact_mod_cast hn
  push_cast
  have e : (2 : ℝ) ^ (-52 : ℤ) = 1 / 4503599627370496 := by norm_num
  rw [e]
  linarith

/-- **C110 (d).** In double precision, for matrices of up to `10^13` rows and `conv ≤ 0.99` (the code uses 0.9 and 0.95): `balance` returns, the
determinant is exactly that of the argument, and `c² + r² ≤ 1.01·5/(2·conv)·c·r`. -/
theorem C110_double {rnd : ℝ → ℝ} (hrnd : Spec.DoubleRounding rnd) {n : ℕ} (hn : n ≤ 10 ^ 13) {tiny conv : ℝ} (h0 : 0 < tiny)
    (fconv : IsFloat 53 conv) (hconv : 0 < conv) (hconv1 : conv ≤ 99 / 100) {M : Matrix (Fin n) (Fin n) ℝ} (hM : ∀ j k, IsFloat 53 (M j k)) :
    ∃ N, ∀ fuel, N < fuel → ∃ B, (doubleArith rnd).balance tiny fuel conv M = some B ∧
      (∃ d : Fin n → ℤ, B = Matrix.diagonal (fun i => ((2 : ℝ) ^ d i)⁻¹) * M * Matrix.diagonal (fun i => (2 : ℝ) ^ d i)) ∧
      B.det = M.det ∧
      ∀ i, tiny < 995 / 1000 * offRow B i → tiny < 995 / 1000 * offCol B i →
        offCol B i + offRow B i ≤ 101 / 100 * (5 / (2 * conv)) * (Real.sqrt (offCol B i) * Real.sqrt (offRow B i)) := by
  have hA := doubleArith_laws hrnd
  have u0 : 0 ≤ (2 : ℝ) ^ (-52 : ℤ) := by positivity
  have u1 : (2 : ℝ) ^ (-52 : ℤ) < 1 := by norm_num
  have hfac := double_factor hn
  set u : ℝ := (2 : ℝ) ^ (-52 : ℤ) with hu
  have eu : (doubleArith rnd).u = u := rfl
  have lo0 : 0 < 1 - u := by linarith
  have hhi0 : 0 < 1 + u := by linarith
  have hk : conv * (1 + u) ^ (n + 3) < (1 - u) ^ (n + 5) := by
    have h1 := pow_inv_hi u0 u1 (n + 3)
    have h2 : (1 - u) ^ (2 * n + 8) = (1 - u) ^ (n + 3) * (1 - u) ^ (n + 5) := by rw [← pow_add]; congr 1; ring
    have h3 : conv < (1 - u) ^ (n + 3) * (1 - u) ^ (n + 5) := by rw [← h2]; exact lt_of_le_of_lt hconv1 (lt_of_lt_of_le (by norm_num) hfac)
    have p3 : 0 < (1 - u) ^ (n + 3) := by positivity
    have p4 : 0 < (1 + u) ^ (n + 3) := by positivity
    have p5 : 0 < (1 - u) ^ (n + 5) := by positivity
    calc conv * (1 + u) ^ (n + 3) < (1 - u) ^ (n + 3) * (1 - u) ^ (n + 5) * (1 + u) ^ (n + 3) := mul_lt_mul_of_pos_right h3 p4
      _ = (1 + u) ^ (n + 3) * (1 - u) ^ (n + 3) * (1 - u) ^ (n + 5) := by ring
      _ ≤ 1 * (1 - u) ^ (n + 5) := mul_le_mul_of_nonneg_right h1 p5.le
      _ = _ := one_mul _
  obtain ⟨N, hN⟩ := C110_terminates hA h0 fconv hconv.le hk hM
  refine ⟨N, fun fuel hf => ?_⟩
  obtain ⟨B, hB⟩ := hN fuel hf
  obtain ⟨s1, s2, -⟩ := C110_similarity hA h0.le hM hB
  refine ⟨B, hB, s1, s2, fun i hr hc => ?_⟩
  have hn1 : 995 / 1000 ≤ (1 - u) ^ (n + 1) := hfac.trans (pow_le_pow_of_le_one lo0.le (by linarith) (by omega))
  have or0 : 0 ≤ offRow B i := by rw [← rowSq_eq]; exact rowSq_nonneg B i
  have oc0 : 0 ≤ offCol B i := by rw [← colSq_eq]; exact colSq_nonneg B i
  have hb := C110_balanced hA h0.le fconv hconv.le hM hB i (hr.trans_le (mul_le_mul_of_nonneg_right hn1 or0))
    (hc.trans_le (mul_le_mul_of_nonneg_right hn1 oc0))
  rw [eu] at hb
  set S := Real.sqrt (offCol B i) * Real.sqrt (offRow B i) with hS
  have S0 : 0 ≤ S := by positivity
  have h1 := pow_inv_hi u0 u1 (n + 5)
  have hT : 0 ≤ conv * (offCol B i + offRow B i) := by positivity
  have h4 : 995 / 1000 * (conv * (offCol B i + offRow B i)) ≤ 5 / 2 * S := by
    calc 995 / 1000 * (conv * (offCol B i + offRow B i)) ≤ (1 - u) ^ (2 * n + 8) * (conv * (offCol B i + offRow B i)) :=
          mul_le_mul_of_nonneg_right hfac hT
      _ = (1 - u) ^ (n + 5) * ((1 - u) ^ (n + 3) * (conv * (offCol B i + offRow B i))) := by
          rw [← mul_assoc ((1 - u) ^ (n + 5)), ← pow_add, show n + 5 + (n + 3) = 2 * n + 8 by ring]
      _ ≤ (1 - u) ^ (n + 5) * (5 / 2 * (1 + u) ^ (n + 5) * S) := mul_le_mul_of_nonneg_left hb (by positivity)
      _ = 5 / 2 * S * ((1 + u) ^ (n + 5) * (1 - u) ^ (n + 5)) := by ring
      _ ≤ 5 / 2 * S * 1 := mul_le_mul_of_nonneg_left h1 (by positivity)
      _ = _ := mul_one _
  have e : 101 / 100 * (5 / (2 * conv)) * S = (101 / 100 * (5 / 2 * S)) / conv := by field_simp
  rw [e, le_div_iff₀ hconv]
  nlinarith

/-- Rounding towards minus infinity is such a rounding; 15/16 is a double below 0.99; a badly scaled matrix of doubles is really changed. -/
theorem roundDown_double : Spec.DoubleRounding (Spec.roundDown 53) where
  isFloat x := Spec.roundDown_isFloat x
  fix _ h := Spec.roundDown_fix (by norm_num) h
  err x := by have := Spec.roundDown_err (p := 53) x; norm_num at this ⊢; exact this

example : ∃ (fuel : ℕ) (B : Matrix (Fin 2) (Fin 2) ℝ),
    (doubleArith (Spec.roundDown 53)).balance (2 ^ (-1063 : ℤ)) fuel (15 / 16) !![1, 100; 1, 1] = some B ∧ B ≠ !![1, 100; 1, 1] ∧
      B.det = (!![1, 100; 1, 1] : Matrix (Fin 2) (Fin 2) ℝ).det := by
  have hf : ∀ m : ℤ, |m| ≤ 100 → IsFloat 53 (m : ℝ) := fun m hm => ⟨m, 0, hm.trans (by norm_num), by simp⟩
  have hM : ∀ j k, IsFloat 53 ((!![1, 100; 1, 1] : Matrix (Fin 2) (Fin 2) ℝ) j k) := by
    intro j k
    have h1 := hf 1 (by norm_num)
    have h2 := hf 100 (by norm_num)
    fin_cases j <;> fin_cases k <;> simp <;> first | simpa using h1 | simpa using h2
  have htiny : (2 : ℝ) ^ (-1063 : ℤ) < 1 / 2 := by
    have : (2 : ℝ) ^ (-1063 : ℤ) < 2 ^ (-1 : ℤ) := zpow_lt_zpow_right₀ (by norm_num) (by norm_num)
    simpa using this
  obtain ⟨N, hN⟩ := C110_double roundDown_double (n := 2) (by norm_num) (tiny := 2 ^ (-1063 : ℤ)) (by positivity) (conv := 15 / 16)
    ⟨15, -4, by norm_num, by norm_num⟩ (by norm_num) (by norm_num) hM
  obtain ⟨B, hB, -, hdet, hbal⟩ := hN (N + 1) (by omega)
  refine ⟨_, B, hB, ?_, hdet⟩
  rintro rfl
  have e0 : (Finset.univ.erase (0 : Fin 2)) = {1} := by decide
  have hR : offRow (!![1, 100; 1, 1] : Matrix (Fin 2) (Fin 2) ℝ) 0 = 100 ^ 2 := by simp [offRow, e0]
  have hC : offCol (!![1, 100; 1, 1] : Matrix (Fin 2) (Fin 2) ℝ) 0 = 1 ^ 2 := by simp [offCol, e0]
  have := hbal 0 (by rw [hR]; linarith) (by rw [hC]; linarith)
  rw [hR, hC, Real.sqrt_sq (by norm_num), Real.sqrt_sq (by norm_num)] at this
  norm_num at this

end CasSph
