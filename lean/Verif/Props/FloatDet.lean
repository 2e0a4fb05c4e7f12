import Mathlib.Analysis.Complex.ExponentialBounds
import Verif.Lemmas.FloatDet
import Verif.Props.FloatBalance
import Verif.Props.FiniteSign
import Verif.Lemmas.Near

/-! # C144: rounding errors of the logarithms of determinants -/

namespace CasSph

open Matrix Finset Spec

variable {n : ℕ} {A : FlFun} {u : ℝ} {piv : Pivoting}

/-- **C144, `slogdet`.** `K` bounds the sums of the moduli in the rows of the inverse, `ρ` all elements that occur. -/
theorem C144_slogdet (hA : RelErr A u) (hpiv : IsPartial piv) {a : Matrix (Fin n) (Fin n) ℝ} (hd : a.det ≠ 0) {K ρ Λ : ℝ} (hK : ∀ i, ∑ j, |a⁻¹ i j| ≤ K) (hK0 : 0 ≤ K)
    (hρ : 0 ≤ ρ) (hg : GrowthLE A piv ρ n a) (hs : 24 * n ^ 2 * (K * (u * ρ)) ≤ 1) (hΛ0 : 0 ≤ Λ) (hΛ : Real.log ρ ≤ Λ) (hΛ' : Real.log (2 * K) ≤ Λ) :
    ∃ x, A.slogdet piv a = some x ∧ |x - Real.log a.det| ≤ 24 * n ^ 3 * (K * (u * ρ)) + ((1 + u) ^ (n + 1) - 1) * (n * Λ) := by
  obtain ⟨h1, h2, h3⟩ := pivots_err hA hpiv hK0 hρ hs hΛ hΛ' n 0 rfl a a⁻¹ (mul_nonsing_inv _ (Ne.isUnit hd)) (by simpa using hK) hg
  refine ⟨_, if_neg fun h0 => (h1 0 h0).1 rfl, ?_⟩
  have := logsum_err hA hΛ0 (A.pivots piv n a) 0 0 0 h1 (by simp) (by simp)
  rw [h2, zero_add, Nat.zero_add] at this
  have h := abs_add_le ((A.pivots piv n a).foldl (fun s d => A.add s (A.log |d|)) 0 - ((A.pivots piv n a).map fun d => Real.log |d|).sum)
    (((A.pivots piv n a).map fun d => Real.log |d|).sum - Real.log a.det)
  rw [sub_add_sub_cancel] at h
  have e : (n : ℝ) * (24 * n ^ 2 * (K * (u * ρ))) = 24 * n ^ 3 * (K * (u * ρ)) := by ring
  linarith

/-- `1 - M` in rounded arithmetic. -/
theorem oneMinus_err (hA : RelErr A u) {M : Matrix (Fin n) (Fin n) ℝ} {μ : ℝ} (hμ : ∀ i j, |(1 - M) i j| ≤ μ) (i j : Fin n) :
    |A.oneMinus M i j - (1 - M) i j| ≤ u * μ := by
  have := hA.sub (if i = j then 1 else 0) (M i j)
  have e : (1 - M) i j = (if i = j then 1 else 0) - M i j := by rw [Matrix.sub_apply, one_apply]
  rw [e]
  refine this.trans (mul_le_mul_of_nonneg_left ?_ hA.u0)
  rw [← e]
  exact hμ i j

/-- **C144, `balanced_slogdet`.** The error in terms of the inverse of `1 - M` and of the balanced matrix. -/
theorem C144_balanced (hA : RelErr A u) (hpiv : IsPartial piv) {F : FlArith} (hF : F.Laws) {tiny conv : ℝ} (h0 : 0 ≤ tiny) {fuel : ℕ} {M B : Matrix (Fin n) (Fin n) ℝ}
    (hfl : ∀ i j, F.fl (A.oneMinus M i j)) (hB : F.balance tiny fuel conv (A.oneMinus M) = some B) (hd : (1 - M).det ≠ 0) {K₀ μ K ρ Λ : ℝ}
    (hK₀ : ∀ i, ∑ j, |(1 - M)⁻¹ i j| ≤ K₀) (hK00 : 0 ≤ K₀) (hμ : ∀ i j, |(1 - M) i j| ≤ μ) (hμ0 : 0 ≤ μ) (hs0 : 2 * n * (K₀ * (u * μ)) ≤ 1)
    (hK : ∀ i, ∑ j, |B⁻¹ i j| ≤ K) (hK0 : 0 ≤ K) (hρ : 0 ≤ ρ) (hg : GrowthLE A piv ρ n B) (hs : 24 * n ^ 2 * (K * (u * ρ)) ≤ 1)
    (hΛ0 : 0 ≤ Λ) (hΛ : Real.log ρ ≤ Λ) (hΛ' : Real.log (2 * K) ≤ Λ) :
    ∃ x, A.balancedSlogdet F tiny piv fuel conv M = some (some x) ∧
      |x - Real.log (1 - M).det| ≤ 2 * n ^ 2 * (K₀ * (u * μ)) + 24 * n ^ 3 * (K * (u * ρ)) + ((1 + u) ^ (n + 1) - 1) * (n * Λ) := by
  have u0 := hA.u0
  obtain ⟨p1, p2, -⟩ := perturb (mul_nonsing_inv _ (Ne.isUnit hd)) hK₀ hK00 (show 0 ≤ u * μ by positivity) (oneMinus_err hA hμ) (by nlinarith)
  have eB : B.det = (A.oneMinus M).det := (C110_similarity hF h0 hfl hB).2.1
  obtain ⟨x, hx, hb⟩ := C144_slogdet hA hpiv (by rw [eB]; exact p2) hK hK0 hρ hg hs hΛ0 hΛ hΛ'
  refine ⟨x, by unfold FlFun.balancedSlogdet; rw [hB, Option.map_some, hx], ?_⟩
  rw [eB] at hb
  have := abs_add_le (x - Real.log (A.oneMinus M).det) (Real.log (A.oneMinus M).det - Real.log (1 - M).det)
  rw [sub_add_sub_cancel] at this
  have e : 2 * (n : ℝ) * (K₀ * (n * (u * μ))) = 2 * n ^ 2 * (K₀ * (u * μ)) := by ring
  linarith

/-- **C144, growth.** With partial pivoting the elements grow at most by the factor `2.1` in each step. -/
theorem C144_growth (hA : RelErr A u) (hpiv : IsPartial piv) {a : Matrix (Fin n) (Fin n) ℝ} (hd : a.det ≠ 0) {K μ : ℝ} (hK : ∀ i, ∑ j, |a⁻¹ i j| ≤ K) (hK0 : 0 ≤ K)
    (hμ : 0 ≤ μ) (ha : ∀ i j, |a i j| ≤ μ) (hs : 24 * n ^ 2 * (K * (u * (2.1 ^ n * μ))) ≤ 1) : GrowthLE A piv (2.1 ^ n * μ) n a :=
  growth_auto hA hpiv hK0 hμ hs n 0 rfl a a⁻¹ (mul_nonsing_inv _ (Ne.isUnit hd)) (by simpa using hK) (by simpa using ha)

/-- **C144, contractions.** If the moduli in every row of `M` add up to at most `θ < 1`, `ln det(1 - M)` is computed up to a multiple of `u`. -/
theorem C144_contraction (hA : RelErr A u) (hpiv : IsPartial piv) {M : Matrix (Fin n) (Fin n) ℝ} {θ : ℝ} (hθ0 : 0 ≤ θ) (hθ : θ < 1) (hM : ∀ i, ∑ j, |M i j| ≤ θ)
    (hs : 100 * n ^ 2 * 2.1 ^ n * u ≤ 1 - θ) :
    ∃ x, A.slogdet piv (A.oneMinus M) = some x ∧
      |x - Real.log (1 - M).det| ≤ 110 * n ^ 3 * 2.1 ^ n * u / (1 - θ) + ((1 + u) ^ (n + 1) - 1) * (n * (n + 3 - Real.log (1 - θ))) := by
  have u0 := hA.u0
  have u1 := hA.u1
  have h1 : 0 < 1 - θ := by linarith
  rcases Nat.eq_zero_or_pos n with rfl | hn
  · refine ⟨0, by simp [FlFun.slogdet, FlFun.pivots], ?_⟩
    simp
  have hn1 : (1 : ℝ) ≤ n := by exact_mod_cast hn
  have hpow : (1 : ℝ) ≤ 2.1 ^ n := one_le_pow₀ (by norm_num)
  have hX : ∀ i, ∑ j, |(-M) i j| ≤ θ := fun i => by simpa using hM i
  have hd : (1 - M).det ≠ 0 := by rw [sub_eq_add_neg]; exact near_one_det_ne hX hθ
  have hVV : (1 - M) * (1 - M)⁻¹ = 1 := mul_nonsing_inv _ (Ne.isUnit hd)
  have hK₀ : ∀ i, ∑ j, |(1 - M)⁻¹ i j| ≤ 1 / (1 - θ) := fun i => near_one_inv hX hθ0 hθ (by rw [← sub_eq_add_neg]; exact hVV) i
  have hMe : ∀ i j, |M i j| ≤ θ := fun i j => (Finset.single_le_sum (f := fun j => |M i j|) (fun j _ => abs_nonneg _) (Finset.mem_univ j)).trans (hM i)
  have hμ : ∀ i j, |(1 - M) i j| ≤ 2 := fun i j => by
    rw [Matrix.sub_apply]
    have := abs_sub ((1 : Matrix (Fin n) (Fin n) ℝ) i j) (M i j)
    have h2 : |(1 : Matrix (Fin n) (Fin n) ℝ) i j| ≤ 1 := by rw [one_apply]; split <;> simp
    linarith [hMe i j]
  have hnu : n ^ 2 * u / (1 - θ) ≤ 1 / 100 := by
    rw [div_le_iff₀ h1]
    have : (n : ℝ) ^ 2 * u * 1 ≤ n ^ 2 * u * 2.1 ^ n := mul_le_mul_of_nonneg_left hpow (by positivity)
    nlinarith
  have hnu' : 1 / (1 - θ) * (n * (u * 2)) ≤ 1 / 50 := by
    have : (n : ℝ) ≤ n ^ 2 := by nlinarith
    calc 1 / (1 - θ) * (n * (u * 2)) ≤ 1 / (1 - θ) * (n ^ 2 * (u * 2)) := by gcongr
      _ = 2 * (n ^ 2 * u / (1 - θ)) := by ring
      _ ≤ 1 / 50 := by linarith
  obtain ⟨p1, p2, W, hW, hWK⟩ := perturb hVV hK₀ (by positivity) (show 0 ≤ u * 2 by positivity) (oneMinus_err hA hμ) (by linarith)
  have eW : (A.oneMinus M)⁻¹ = W := inv_eq_right_inv hW
  set K := 2 / (1 - θ) with hKdef
  have hK0 : 0 ≤ K := by positivity
  have hK : ∀ i, ∑ j, |(A.oneMinus M)⁻¹ i j| ≤ K := fun i => by
    rw [eW]
    refine (hWK i).trans ?_
    rw [div_le_iff₀ (by linarith), hKdef, div_mul_eq_mul_div, div_le_div_iff_of_pos_right h1]
    linarith
  have hBe : ∀ i j, |A.oneMinus M i j| ≤ 2.02 := fun i j => by
    have := abs_add_le (A.oneMinus M i j - (1 - M) i j) ((1 - M) i j)
    rw [sub_add_cancel] at this
    linarith [oneMinus_err hA hμ i j, hμ i j]
  have hs' : 24 * n ^ 2 * (K * (u * (2.1 ^ n * 2.02))) ≤ 1 := by
    rw [hKdef, show 24 * (n : ℝ) ^ 2 * (2 / (1 - θ) * (u * (2.1 ^ n * 2.02))) = 96.96 * n ^ 2 * 2.1 ^ n * u / (1 - θ) by ring, div_le_one h1]
    have : 0 ≤ (n : ℝ) ^ 2 * 2.1 ^ n * u := by positivity
    nlinarith
  have hg := C144_growth hA hpiv p2 hK hK0 (μ := 2.02) (by norm_num) hBe hs'
  have hlog1 : Real.log (1 - θ) ≤ 0 := Real.log_nonpos h1.le (by linarith)
  have l21 : Real.log 2.1 ≤ 1 := (Real.log_le_log (by norm_num) (by norm_num : (2.1 : ℝ) ≤ 2.7)).trans (by
    rw [Real.log_le_iff_le_exp (by norm_num)]; linarith [Real.exp_one_gt_d9])
  have l2 : Real.log 2.02 ≤ 1 := (Real.log_le_log (by norm_num) (by norm_num)).trans l21
  have l4 : Real.log 4 ≤ 2 := by
    rw [show (4 : ℝ) = 2 ^ 2 by norm_num, Real.log_pow]
    have := Real.log_two_lt_d9
    push_cast
    linarith
  obtain ⟨x, hx, hb⟩ := C144_slogdet hA hpiv p2 hK hK0 (by positivity) hg hs' (Λ := n + 3 - Real.log (1 - θ)) (by linarith)
    (by
      rw [Real.log_mul (by positivity) (by norm_num), Real.log_pow]
      nlinarith)
    (by
      rw [hKdef, show 2 * (2 / (1 - θ)) = 4 / (1 - θ) by ring, Real.log_div (by norm_num) h1.ne']
      linarith)
  refine ⟨x, hx, ?_⟩
  have := abs_add_le (x - Real.log (A.oneMinus M).det) (Real.log (A.oneMinus M).det - Real.log (1 - M).det)
  rw [sub_add_sub_cancel] at this
  refine this.trans ((add_le_add hb p1).trans ?_)
  have e1 : 24 * (n : ℝ) ^ 3 * (K * (u * (2.1 ^ n * 2.02))) = 96.96 * (n ^ 3 * 2.1 ^ n * u / (1 - θ)) := by rw [hKdef]; ring
  have e2 : 2 * (n : ℝ) * (1 / (1 - θ) * (n * (u * 2))) ≤ 4 * (n ^ 3 * 2.1 ^ n * u / (1 - θ)) := by
    rw [show 2 * (n : ℝ) * (1 / (1 - θ) * (n * (u * 2))) = 4 * (n ^ 2 * 1 * u / (1 - θ)) by ring]
    gcongr
    norm_num
  have e3 : 110 * (n : ℝ) ^ 3 * 2.1 ^ n * u / (1 - θ) = 110 * (n ^ 3 * 2.1 ^ n * u / (1 - θ)) := by ring
  have e4 : 0 ≤ (n : ℝ) ^ 3 * 2.1 ^ n * u / (1 - θ) := by positivity
  rw [e1, e3]
  linarith

/-! ## Loss of small values -/

/-- Exact operations, but `1 - b` is rounded to 1 for `|b| ≤ u/2`. -/
noncomputable def flatOne (u : ℝ) : FlFun where
  pi := Real.pi
  add := (· + ·)
  sub := fun a b => open Classical in if a = 1 ∧ |b| ≤ u / 2 then 1 else a - b
  mul := (· * ·)
  div := (· / ·)
  tenth := 1 / 10
  pow := (· ^ ·)
  log := Real.log
  exp := Real.exp

theorem flatOne_err {u : ℝ} (h0 : 0 ≤ u) (h1 : u ≤ 1 / 100) : RelErr (flatOne u) u where
  u0 := h0
  u1 := h1
  pi := by simp only [flatOne, sub_self, abs_zero]; have := Real.pi_pos; positivity
  tenth := by simp only [flatOne, sub_self, abs_zero]; positivity
  add := fun a b => by simp only [flatOne, sub_self, abs_zero]; positivity
  mul := fun a b => by simp only [flatOne, sub_self, abs_zero]; positivity
  div := fun a b _ => by simp only [flatOne, sub_self, abs_zero]; positivity
  pow := fun a n => by simp only [flatOne, sub_self, abs_zero]; positivity
  log := fun a _ => by simp only [flatOne, sub_self, abs_zero]; positivity
  exp := fun a => by simp only [flatOne, sub_self, abs_zero]; positivity
  sub := fun a b => by
    simp only [flatOne]
    split
    · rename_i h
      obtain ⟨rfl, hb⟩ := h
      have h2 := (abs_le.mp hb).2
      rw [show (1 : ℝ) - (1 - b) = b by ring, abs_of_pos (show (0 : ℝ) < 1 - b by linarith)]
      nlinarith
    · rw [sub_self, abs_zero]; positivity

/-- All pivots of a matrix with ones on the diagonal and tiny elements elsewhere are 1. -/
theorem flat_pivots (hpiv : IsPartial piv) {u : ℝ} (h0 : 0 < u) (h1 : u ≤ 1 / 100) : ∀ (n : ℕ) (a : Matrix (Fin n) (Fin n) ℝ) (δ : ℝ), 0 ≤ δ → δ * (1 + n * (u / 2)) ≤ u / 2 →
    (∀ i, a i i = 1) → (∀ i j, i ≠ j → |a i j| ≤ δ) → (flatOne u).pivots piv n a = List.replicate n 1 := by
  intro n
  induction n with
  | zero => intros; rfl
  | succ n ih =>
    intro a δ hδ hs ha hb
    push_cast at hs
    have hn : 0 ≤ (n : ℝ) := Nat.cast_nonneg n
    have hδu : δ ≤ u / 2 := by nlinarith [mul_nonneg hδ (show 0 ≤ ((n : ℝ) + 1) * (u / 2) by positivity)]
    have hp : piv n a = 0 := by
      by_contra hne
      have := hpiv n a 0
      rw [ha 0, abs_one] at this
      linarith [hb _ 0 hne]
    have hs1 : δ * (1 + n * (u / 2)) ≤ u / 2 := by nlinarith
    have ent : ∀ i j : Fin n, (flatOne u).elim a 0 i j = (flatOne u).sub (a i.succ j.succ) (a i.succ 0 * a 0 j.succ) := fun i j => by
      simp [FlFun.elim, flatOne, ha 0]
    have prod : ∀ i j : Fin n, |a i.succ 0 * a 0 j.succ| ≤ δ * δ := fun i j => by
      rw [abs_mul]
      exact mul_le_mul (hb _ _ (Fin.succ_ne_zero i)) (hb _ _ (Fin.succ_ne_zero j).symm) (abs_nonneg _) hδ
    show a (piv n a) 0 :: (flatOne u).pivots piv n ((flatOne u).elim a (piv n a)) = _
    rw [hp, ha 0, List.replicate_succ, ih _ (δ + δ * δ) (by positivity) (by nlinarith) (fun i => ?_) fun i j hij => ?_]
    · rw [ent, ha]
      simp only [flatOne]
      exact if_pos ⟨trivial, (prod i i).trans (by nlinarith)⟩
    · have hx := hb i.succ j.succ fun h => hij (Fin.succ_injective n h)
      rw [ent]
      simp only [flatOne]
      rw [if_neg fun h => by rw [h.1, abs_one] at hx; linarith]
      exact (abs_sub _ _).trans (add_le_add hx (prod i j))

/-- **C144, no relative accuracy.** For every `u` there is an arithmetic with relative errors of at most `u` in which `slogdet` of `1 - M` vanishes
for all small matrices, such as multiples `x > 0` of the identity, although `ln det(1 - M)` is negative for these. -/
theorem C144_lost {u : ℝ} (h0 : 0 < u) (h1 : u ≤ 1 / 100) : ∃ A, RelErr A u ∧ ∀ (piv : Pivoting), IsPartial piv → ∀ (n : ℕ) (M : Matrix (Fin n) (Fin n) ℝ),
    (∀ i j, |M i j| * (1 + n * (u / 2)) ≤ u / 2) → A.slogdet piv (A.oneMinus M) = some 0 ∧
      ∀ x : ℝ, 0 < x → 0 < n → M = x • (1 : Matrix (Fin n) (Fin n) ℝ) → Real.log (1 - M).det < 0 := by
  refine ⟨flatOne u, flatOne_err h0.le h1, fun piv hpiv n M hM => ⟨?_, fun x hx hn hMx => ?_⟩⟩
  · have hc : 0 < 1 + (n : ℝ) * (u / 2) := by positivity
    have hle : ∀ i j, |M i j| ≤ u / 2 := fun i j => by
      have := abs_nonneg (M i j)
      have h2 : 0 ≤ |M i j| * (n * (u / 2)) := by positivity
      nlinarith [hM i j]
    have hp := flat_pivots hpiv h0 h1 n ((flatOne u).oneMinus M) (u / 2 / (1 + n * (u / 2))) (by positivity) (by rw [div_mul_cancel₀ _ hc.ne'])
      (fun i => by simp only [FlFun.oneMinus, if_true, flatOne]; exact if_pos ⟨trivial, hle i i⟩)
      fun i j hij => by
        simp only [FlFun.oneMinus, if_neg hij, flatOne, zero_ne_one, false_and, if_false, zero_sub, abs_neg]
        rw [le_div_iff₀ hc]
        exact hM i j
    unfold FlFun.slogdet
    rw [hp, if_neg (by simp)]
    congr 1
    clear hp hM hle hc
    induction n with
    | zero => rfl
    | succ n ih => rw [List.replicate_succ, List.foldl_cons]; simpa [flatOne] using ih (M := 0)
  · have hx1 : x * (1 + n * (u / 2)) ≤ u / 2 := by
      have := hM ⟨0, hn⟩ ⟨0, hn⟩
      rwa [hMx, Matrix.smul_apply, one_apply_eq, smul_eq_mul, mul_one, abs_of_pos hx] at this
    have hx2 : x < 1 := by
      have : 0 ≤ x * (n * (u / 2)) := by positivity
      nlinarith
    have e : (1 - M).det = (1 - x) ^ n := by
      rw [hMx, show (1 : Matrix (Fin n) (Fin n) ℝ) - x • 1 = (1 - x) • 1 by rw [sub_smul, one_smul], det_smul, det_one, mul_one, Fintype.card_fin]
    rw [e, Real.log_pow]
    exact mul_neg_of_pos_of_neg (by exact_mod_cast hn) (Real.log_neg (by linarith) (by linarith))

/-- The block matrix as one array, geometry.py:486, 503, 510 `matrix_append`. -/
def Blocks.array (B : Blocks n) : Matrix (Fin (n + n)) (Fin (n + n)) ℝ := B.full.submatrix finSumFinEquiv.symm finSumFinEquiv.symm

theorem array_det (B : Blocks n) : (1 - B.array).det = (1 - B.full).det := by
  rw [Blocks.array, show (1 : Matrix (Fin (n + n)) (Fin (n + n)) ℝ) = (1 : Matrix (Fin n ⊕ Fin n) (Fin n ⊕ Fin n) ℝ).submatrix finSumFinEquiv.symm finSumFinEquiv.symm by
    rw [submatrix_one_equiv]]
  exact det_submatrix_equiv_self finSumFinEquiv.symm (1 - B.full)

/-- **C144, round-trip matrices.** The determinant of the block matrices as `balanced_slogdet` computes it: the error assumed in C130. -/
theorem C144_blocks (hA : RelErr A u) (hpiv : IsPartial piv) {F : FlArith} (hF : F.Laws) {tiny conv : ℝ} (h0 : 0 ≤ tiny) {fuel : ℕ} {R : Blocks n}
    {B : Matrix (Fin (n + n)) (Fin (n + n)) ℝ} (hfl : ∀ i j, F.fl (A.oneMinus R.array i j)) (hB : F.balance tiny fuel conv (A.oneMinus R.array) = some B)
    (hd : 0 < (1 - R.full).det) {K₀ μ K ρ Λ : ℝ} (hK₀ : ∀ i, ∑ j, |(1 - R.array)⁻¹ i j| ≤ K₀) (hK00 : 0 ≤ K₀) (hμ : ∀ i j, |(1 - R.array) i j| ≤ μ)
    (hμ0 : 0 ≤ μ) (hs0 : 4 * n * (K₀ * (u * μ)) ≤ 1) (hK : ∀ i, ∑ j, |B⁻¹ i j| ≤ K) (hK0 : 0 ≤ K) (hρ : 0 ≤ ρ) (hg : GrowthLE A piv ρ (n + n) B)
    (hs : 96 * n ^ 2 * (K * (u * ρ)) ≤ 1) (hΛ0 : 0 ≤ Λ) (hΛ : Real.log ρ ≤ Λ) (hΛ' : Real.log (2 * K) ≤ Λ) :
    ∃ x, A.balancedSlogdet F tiny piv fuel conv R.array = some (some x) ∧
      |x - Real.log (1 - R.full).det| ≤ 8 * n ^ 2 * (K₀ * (u * μ)) + 192 * n ^ 3 * (K * (u * ρ)) + ((1 + u) ^ (2 * n + 1) - 1) * (2 * n * Λ) := by
  obtain ⟨x, hx, hb⟩ := C144_balanced hA hpiv hF h0 hfl hB (by rw [array_det]; exact hd.ne') hK₀ hK00 hμ hμ0
    (by push_cast; linarith) hK hK0 hρ hg (by push_cast; linarith) hΛ0 hΛ hΛ'
  refine ⟨x, hx, ?_⟩
  rw [array_det, ← two_mul] at hb
  refine hb.trans (le_of_eq ?_)
  push_cast
  ring

/-- **C144, `sln_det_blockdiagonal`.** One multipole: product and logarithm.  More multipoles: the two determinants are added. -/
theorem C144_blockdiagonal (hA : RelErr A u) {F : FlArith} {tiny conv : ℝ} {fuel : ℕ} {P Q : Matrix (Fin n) (Fin n) ℝ} (hP : 0 < (1 - P).det) (hQ : 0 < (1 - Q).det) :
    (n = 1 → ∃ x, A.slnDetBlockdiagonal F tiny piv fuel conv n P Q = some (some x) ∧
      |x - (Real.log (1 - P).det + Real.log (1 - Q).det)| ≤ 4 * u + u * |Real.log (1 - P).det + Real.log (1 - Q).det|) ∧
    (n ≠ 1 → ∀ p q e : ℝ, A.balancedSlogdet F tiny piv fuel conv P = some (some p) → A.balancedSlogdet F tiny piv fuel conv Q = some (some q) →
      |p - Real.log (1 - P).det| ≤ e → |q - Real.log (1 - Q).det| ≤ e → ∃ x, A.slnDetBlockdiagonal F tiny piv fuel conv n P Q = some (some x) ∧
        |x - (Real.log (1 - P).det + Real.log (1 - Q).det)| ≤ 2 * e * (1 + u) + u * |Real.log (1 - P).det + Real.log (1 - Q).det|) := by
  have u0 := hA.u0
  refine ⟨fun hn => ?_, fun hn p q e hp hq ep eq => ?_⟩
  · subst hn
    simp only [det_fin_one, Matrix.sub_apply, Matrix.one_apply_eq] at hP hQ ⊢
    have h1 := hA.mul_near (hA.near hP (hA.sub 1 (P 0 0))) (hA.near hQ (hA.sub 1 (Q 0 0)))
    refine ⟨A.log (A.mul (A.sub 1 (P 0 0)) (A.sub 1 (Q 0 0))), ?_, ?_⟩
    · simp only [FlFun.slnDetBlockdiagonal]
      rw [if_pos h1.a0]
    · rw [← Real.log_mul hP.ne' hQ.ne']
      refine (hA.log_err h1).trans ?_
      linarith
  · have hs : A.slnDetBlockdiagonal F tiny piv fuel conv n P Q = some (some (A.add q p)) := by
      match n, hn, P, Q, hp, hq with
      | 0, _, P, Q, hp, hq => simp [FlFun.slnDetBlockdiagonal, hp, hq]
      | n + 2, _, P, Q, hp, hq => simp [FlFun.slnDetBlockdiagonal, hp, hq]
    refine ⟨_, hs, ?_⟩
    have h1 := hA.add q p
    have h2 : |q + p - (Real.log (1 - P).det + Real.log (1 - Q).det)| ≤ 2 * e := by
      rw [show q + p - (Real.log (1 - P).det + Real.log (1 - Q).det) = (p - Real.log (1 - P).det) + (q - Real.log (1 - Q).det) by ring]
      linarith [abs_add_le (p - Real.log (1 - P).det) (q - Real.log (1 - Q).det)]
    have h3 : |q + p| ≤ 2 * e + |Real.log (1 - P).det + Real.log (1 - Q).det| := by
      have := abs_add_le (q + p - (Real.log (1 - P).det + Real.log (1 - Q).det)) (Real.log (1 - P).det + Real.log (1 - Q).det)
      rw [sub_add_cancel] at this
      linarith
    have h4 := abs_add_le (A.add q p - (q + p)) (q + p - (Real.log (1 - P).det + Real.log (1 - Q).det))
    rw [sub_add_sub_cancel] at h4
    have h5 := mul_le_mul_of_nonneg_left h3 u0
    linarith

/-! ## Examples -/

/-- Partial pivoting exists. -/
theorem exists_partial : ∃ piv, IsPartial piv := by
  have : ∀ (n : ℕ) (a : Matrix (Fin (n + 1)) (Fin (n + 1)) ℝ), ∃ p, ∀ i, |a i 0| ≤ |a p 0| := fun n a => by
    obtain ⟨p, -, hp⟩ := Finset.exists_max_image univ (fun i => |a i 0|) ⟨0, Finset.mem_univ _⟩
    exact ⟨p, fun i => hp i (Finset.mem_univ i)⟩
  choose piv hpiv using this
  exact ⟨piv, hpiv⟩

/-- Two multipoles with round trips of up to one half, in double precision: the value is right up to `1e-11`. -/
example (hA : RelErr A (2 ^ (-52 : ℤ))) (hpiv : IsPartial piv) (p q r s : ℝ) (h1 : |p| + |q| ≤ 1 / 2) (h2 : |r| + |s| ≤ 1 / 2) :
    ∃ x, A.slogdet piv (A.oneMinus !![p, q; r, s]) = some x ∧ |x - Real.log (1 - !![p, q; r, s]).det| ≤ 1e-11 := by
  obtain ⟨x, hx, hb⟩ := C144_contraction hA hpiv (M := !![p, q; r, s]) (θ := 1 / 2) (by norm_num) (by norm_num)
    (fun i => by fin_cases i <;> simp [Fin.sum_univ_two] <;> linarith) (by norm_num)
  refine ⟨x, hx, hb.trans ?_⟩
  have l : -Real.log (1 - 1 / 2) ≤ 1 := by
    rw [show (1 : ℝ) - 1 / 2 = 2⁻¹ by norm_num, Real.log_inv, neg_neg]
    linarith [Real.log_two_lt_d9]
  have : ((1 + (2 : ℝ) ^ (-52 : ℤ)) ^ (2 + 1) - 1) * ((2 : ℕ) * ((2 : ℕ) + 3 - Real.log (1 - 1 / 2))) ≤ ((1 + (2 : ℝ) ^ (-52 : ℤ)) ^ (2 + 1) - 1) * (2 * 6) := by
    refine mul_le_mul_of_nonneg_left ?_ (by norm_num)
    push_cast
    linarith
  refine (add_le_add_right this _).trans ?_
  norm_num

/-- One matrix that is lost: with `u = 1/1000`, `M = 10⁻⁴` gives 0 instead of a negative number. -/
example : ∃ A, RelErr A (1 / 1000) ∧ ∀ piv, IsPartial piv → A.slogdet piv (A.oneMinus ((1e-4 : ℝ) • (1 : Matrix (Fin 3) (Fin 3) ℝ))) = some 0 ∧
    Real.log (1 - (1e-4 : ℝ) • (1 : Matrix (Fin 3) (Fin 3) ℝ)).det < 0 := by
  obtain ⟨A, hA, h⟩ := C144_lost (u := 1 / 1000) (by norm_num) (by norm_num)
  refine ⟨A, hA, fun piv hpiv => ?_⟩
  obtain ⟨h1, h2⟩ := h piv hpiv 3 ((1e-4 : ℝ) • 1) fun i j => by
    rw [Matrix.smul_apply, one_apply]
    split <;> norm_num
  exact ⟨h1, h2 1e-4 (by norm_num) (by norm_num) rfl⟩

/-- The whole of `balanced_slogdet` for two multipoles that do not mix: the value is right up to `3000 u`. -/
example (hA : RelErr A u) (hu : u ≤ 1e-5) (hpiv : IsPartial piv) (hfl : ∀ i j, IsFloat 53 (A.oneMinus (diagonal ![1 / 2, 1 / 4] : Matrix (Fin 2) (Fin 2) ℝ) i j)) :
    ∃ fuel x, A.balancedSlogdet (doubleArith (roundDown 53)) (2 ^ (-1063 : ℤ)) piv fuel (15 / 16) (diagonal ![1 / 2, 1 / 4]) = some (some x) ∧
      |x - Real.log (1 - (diagonal ![1 / 2, 1 / 4] : Matrix (Fin 2) (Fin 2) ℝ)).det| ≤ 3000 * u := by
  have u0 := hA.u0
  obtain ⟨N, hN⟩ := C110_double roundDown_double (n := 2) (by norm_num) (tiny := 2 ^ (-1063 : ℤ)) (by positivity) (conv := 15 / 16) ⟨15, -4, by norm_num, by norm_num⟩
    (by norm_num) (by norm_num) hfl
  obtain ⟨B, hB, ⟨d, hd⟩, -⟩ := hN (N + 1) (by omega)
  set a := A.oneMinus (diagonal ![1 / 2, 1 / 4] : Matrix (Fin 2) (Fin 2) ℝ) with ha
  have s1 := hA.sub 1 (1 / 2)
  have s2 := hA.sub 1 (1 / 4)
  have s3 := hA.sub 0 0
  norm_num at s1 s2 s3
  have ea : a = diagonal ![A.sub 1 (1 / 2), A.sub 1 (1 / 4)] := by
    ext i j
    fin_cases i <;> fin_cases j <;> simp [ha, FlFun.oneMinus, s3]
  obtain ⟨a1, a2⟩ := abs_le.mp s1
  obtain ⟨b1, b2⟩ := abs_le.mp s2
  have eB : B = a := by
    rw [hd, ea, diagonal_mul_diagonal, diagonal_mul_diagonal]
    congr 1
    funext i
    have : (2 : ℝ) ^ d i ≠ 0 := by positivity
    field_simp
  rw [eB] at hB
  set x := A.sub 1 (1 / 2) with hx
  set y := A.sub 1 (1 / 4) with hy
  have x0 : 0.4 ≤ x := by norm_num at a1 ⊢; linarith
  have x1 : x ≤ 1 := by norm_num at a2 ⊢; linarith
  have y0 : 0.4 ≤ y := by norm_num at b1 ⊢; linarith
  have y1 : y ≤ 1 := by norm_num at b2 ⊢; linarith
  have ent : ∀ i j, |a i j| ≤ 1 := fun i j => by
    rw [ea]
    fin_cases i <;> fin_cases j <;> simp [abs_le] <;> constructor <;> linarith
  have inv : ∀ v w : ℝ, v ≠ 0 → w ≠ 0 → (diagonal ![v, w])⁻¹ = diagonal ![v⁻¹, w⁻¹] := fun v w hv hw => by
    refine inv_eq_right_inv ?_
    rw [diagonal_mul_diagonal, ← diagonal_one]
    congr 1
    funext i
    fin_cases i <;> simp [hv, hw]
  have hKa : ∀ i, ∑ j, |a⁻¹ i j| ≤ 3 := fun i => by
    rw [ea, inv x y (by linarith) (by linarith)]
    have i1 : x⁻¹ ≤ 3 := by rw [inv_le_comm₀ (by linarith) (by norm_num)]; norm_num at x0 ⊢; linarith
    have i2 : y⁻¹ ≤ 3 := by rw [inv_le_comm₀ (by linarith) (by norm_num)]; norm_num at y0 ⊢; linarith
    fin_cases i <;> simp [Fin.sum_univ_two]
    · rwa [abs_of_pos (by linarith)]
    · rwa [abs_of_pos (by linarith)]
  have hda : a.det ≠ 0 := by
    rw [ea, det_diagonal, Fin.prod_univ_two]
    have : 0 < x * y := by nlinarith
    simpa using this.ne'
  have e1 : (1 : Matrix (Fin 2) (Fin 2) ℝ) - diagonal ![1 / 2, 1 / 4] = diagonal ![1 / 2, 3 / 4] := by
    rw [← diagonal_one, diagonal_sub]
    congr 1
    funext i
    fin_cases i <;> norm_num
  have hg := C144_growth hA hpiv hda hKa (by norm_num) zero_le_one ent (by norm_num; norm_num at hu; linarith)
  have hlog : ∀ v : ℝ, 0 < v → v ≤ 6 → Real.log v ≤ 2 := fun v v0 v1 => by
    rw [Real.log_le_iff_le_exp v0]
    have := Real.exp_one_gt_d9
    rw [show (2 : ℝ) = 1 + 1 by norm_num, Real.exp_add]
    nlinarith
  obtain ⟨z, hz, hb⟩ := C144_balanced hA hpiv (doubleArith_laws roundDown_double) (tiny := 2 ^ (-1063 : ℤ)) (by positivity) hfl hB
    (by rw [e1, det_diagonal, Fin.prod_univ_two]; norm_num) (K₀ := 2) (μ := 1)
    (fun i => by
      rw [e1, inv _ _ (by norm_num) (by norm_num)]
      fin_cases i <;> simp [Fin.sum_univ_two]
      norm_num)
    (by norm_num) (fun i j => by rw [e1]; fin_cases i <;> fin_cases j <;> norm_num) zero_le_one (by norm_num; norm_num at hu; linarith)
    hKa (by norm_num) (by norm_num) hg (by norm_num; norm_num at hu; linarith) (Λ := 2) (by norm_num) (hlog _ (by norm_num) (by norm_num)) (hlog _ (by norm_num) (by norm_num))
  refine ⟨N + 1, z, hz, hb.trans ?_⟩
  norm_num at hu ⊢
  nlinarith [mul_nonneg u0 u0, mul_nonneg u0 (mul_nonneg u0 u0), mul_nonneg (mul_nonneg u0 u0) (sub_nonneg.2 hu), mul_nonneg u0 (sub_nonneg.2 hu)]

/-- One multipole of each kind at zero frequency. -/
example (hA : RelErr A u) {F : FlArith} {fuel : ℕ} : ∃ x, A.slnDetBlockdiagonal F 1 piv fuel 0.9 1 !![1 / 2] !![1 / 4] = some (some x) ∧
    |x - Real.log (3 / 8)| ≤ 4 * u + u * |Real.log (3 / 8)| := by
  obtain ⟨x, h1, h2⟩ := (C144_blockdiagonal hA (piv := piv) (F := F) (tiny := 1) (conv := 0.9) (fuel := fuel) (P := !![1 / 2]) (Q := !![1 / 4])
    (by norm_num [det_fin_one]) (by norm_num [det_fin_one])).1 rfl
  refine ⟨x, h1, ?_⟩
  rw [← Real.log_mul (by norm_num [det_fin_one]) (by norm_num [det_fin_one])] at h2
  norm_num [det_fin_one] at h2
  norm_num
  exact h2

end CasSph
