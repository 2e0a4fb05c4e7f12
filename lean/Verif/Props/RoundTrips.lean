import Verif.Props.MSum
import Verif.Lemmas.Py
import Verif.Lemmas.TraceLog
import Mathlib.LinearAlgebra.Matrix.Notation

/-! # Properties C17, C18: convergence of the round-trip expansion, automatic order -/

namespace CasSph

open scoped Classical
open Spec Matrix Filter Topology

/-! ## C17 -/

/-- All (complex) eigenvalues of the real matrix `A` lie inside the unit disc. -/
def Spec.SpectrumInDisc {N : ℕ} (A : Matrix (Fin N) (Fin N) ℝ) : Prop :=
  ∀ (z : ℂ) (x : Fin N → ℂ), x ≠ 0 → A.map Complex.ofReal *ᵥ x = z • x → ‖z‖ < 1

theorem traceSum_tendsto {N : ℕ} {A : Matrix (Fin N) (Fin N) ℝ} (h : SpectrumInDisc A) :
    Tendsto (fun k => traceSum A k) atTop (𝓝 (-Real.log |(1 - A).det|)) := by
  have h1 := (hasSum_trace_real A h).tendsto_sum_nat
  have h2 := (tendsto_add_atTop_iff_nat 1).2 h1
  refine h2.congr fun k => ?_
  unfold traceSum
  rw [Finset.range_eq_Ico, Finset.sum_eq_sum_Ico_succ_bot (by omega)]
  simp only [Nat.cast_zero, div_zero, zero_add]
  rfl

/-- **C17.** If all eigenvalues of every round-trip matrix lie inside the unit disc, the fixed-order
round-trip expansion converges with growing order to `ln|det(1-M)|` in every slice. -/
theorem C17_trace_to_lndet {d N : ℕ} (M : Fin d → Matrix (Fin N) (Fin N) ℝ)
    (h : ∀ i, SpectrumInDisc (M i)) :
    ∃ f : ℕ → Fin d → ℝ, (∀ n : ℕ, 1 ≤ n → roundtripsFixed M n = .ok (f n, (n : ℤ))) ∧
      ∀ i, Tendsto (fun n => f n i) atTop (𝓝 (Real.log |(1 - M i).det|)) := by
  refine ⟨fun n i => -traceSum (M i) n, fun n hn => C16_fixed_order M n hn, fun i => ?_⟩
  simpa using (traceSum_tendsto (h i)).neg

/-- **C17 (ii).** Matrices whose row sums of absolute values are below one have their eigenvalues inside
the unit disc. -/
theorem C17_row_norm {N : ℕ} {A : Matrix (Fin N) (Fin N) ℝ} (h : ∀ i, ∑ j, |A i j| < 1) :
    SpectrumInDisc A := by
  intro z x hx hz
  have hne : Nonempty (Fin N) := by
    by_contra hc
    rw [not_nonempty_iff] at hc
    exact hx (Subsingleton.elim _ _)
  obtain ⟨r, hr⟩ := Finite.exists_max fun i => ‖x i‖
  have hpos : 0 < ‖x r‖ := by
    rw [norm_pos_iff]
    intro h0
    apply hx
    funext i
    have := hr i
    rw [h0, norm_zero] at this
    exact norm_le_zero_iff.1 this
  have hrow := congrFun hz r
  have h1 : ‖z‖ * ‖x r‖ ≤ (∑ j, |A r j|) * ‖x r‖ := by
    calc ‖z‖ * ‖x r‖ = ‖(z • x) r‖ := by rw [Pi.smul_apply, smul_eq_mul, norm_mul]
      _ = ‖∑ j, (A r j : ℂ) * x j‖ := by rw [← hrow]; rfl
      _ ≤ ∑ j, ‖(A r j : ℂ) * x j‖ := norm_sum_le _ _
      _ ≤ ∑ j, |A r j| * ‖x r‖ := by
        refine Finset.sum_le_sum fun j _ => ?_
        rw [norm_mul, Complex.norm_real, Real.norm_eq_abs]
        exact mul_le_mul_of_nonneg_left (hr j) (abs_nonneg _)
      _ = _ := by rw [Finset.sum_mul]
  exact lt_of_le_of_lt (le_of_mul_le_mul_right h1 hpos) (h r)

/-- A non-trivial matrix: `[[1/2, 1/4], [1/8, 0]]`. -/
example : SpectrumInDisc !![(1 : ℝ) / 2, 1 / 4; 1 / 8, 0] := by
  refine C17_row_norm fun i => ?_
  fin_cases i <;> norm_num [Fin.sum_univ_two, abs_of_pos]

/-! ## C18 -/

theorem AbsQuot.gt_num (x y p : ℝ) : (absQuot x y).gt (.num p) = true ↔ p * |y| < |x| := by
  unfold absQuot
  by_cases hy : y = 0
  · rw [if_neg (not_not.2 hy)]
    by_cases hx : x = 0
    · simp [hx, hy, AbsQuot.gt]
    · simp [hx, hy, AbsQuot.gt]
  · rw [if_pos hy]
    simp only [AbsQuot.gt, decide_eq_true_eq, gt_iff_lt]
    rw [abs_div, lt_div_iff₀ (abs_pos.2 hy)]

theorem absQuot_nan (x y : ℝ) : absQuot x y = .nan ↔ x = 0 ∧ y = 0 := by
  unfold absQuot
  split_ifs with h1 h2
  · simp [h1]
  · simp [h2]
  · simp [not_not.1 h1, not_not.1 h2]

theorem pyMax_gt (p : ℝ) (a : AbsQuot) (l : List AbsQuot) :
    (pyMax a l).gt (.num p) = true ↔ a ≠ .nan ∧ ∃ b ∈ a :: l, b.gt (.num p) = true := by
  induction l generalizing a with
  | nil =>
    simp only [pyMax, List.mem_singleton, exists_eq_left]
    cases a <;> simp [AbsQuot.gt]
  | cons b l ih =>
    rw [pyMax, ih]
    simp only [List.mem_cons, exists_eq_or_imp]
    generalize (∃ c ∈ l, c.gt (.num p) = true) = Q
    have key : ((if b.gt a = true then b else a) ≠ .nan ∧
        (if b.gt a = true then b else a).gt (.num p) = true ↔
        a ≠ .nan ∧ (a.gt (.num p) = true ∨ b.gt (.num p) = true)) ∧
        ((if b.gt a = true then b else a) ≠ .nan ↔ a ≠ .nan) := by
      cases a with
      | num x =>
        cases b with
        | num y =>
          by_cases hxy : y > x
          · simp [AbsQuot.gt, hxy]
            exact fun h => lt_trans h hxy
          · simp [AbsQuot.gt, hxy]
            exact fun h => lt_of_lt_of_le h (not_lt.1 hxy)
        | inf => simp [AbsQuot.gt]
        | nan => simp [AbsQuot.gt]
      | inf => cases b <;> simp [AbsQuot.gt]
      | nan => cases b <;> simp [AbsQuot.gt]
    tauto

variable {d N : ℕ}

/-- The state after `j` passes. -/
theorem rtStep_iterate (M : Fin (d + 1) → Matrix (Fin N) (Fin N) ℝ) (r0 : AbsQuot) (j : ℕ) :
    let s := (rtStep M)^[j] { pw := M, sum := fun i => (M i).trace / 1, n := 2, rel := r0 }
    (∀ i, s.pw i = M i ^ (j + 1)) ∧ (∀ i, s.sum i = traceSum (M i) (j + 1)) ∧ s.n = j + 2 := by
  induction j with
  | zero => simp [traceSum]
  | succ j ih =>
    obtain ⟨h1, h2, h3⟩ := ih
    rw [Function.iterate_succ_apply']
    refine ⟨fun i => ?_, fun i => ?_, ?_⟩
    · show M i * _ = _
      rw [h1, ← pow_succ']
    · show _ + (M i * _).trace / _ = _
      rw [h1, h2, h3, ← pow_succ']
      unfold traceSum
      rw [Finset.sum_Icc_succ_top (b := j + 1) (by omega)]
    · show _ + 1 = _
      rw [h3]

/-- In slice `i` the term of order `N` exceeds `precision` times the sum up to order `N`. -/
def Spec.TermTooBig (precision : ℝ) (A : Matrix (Fin N) (Fin N) ℝ) (k : ℕ) : Prop :=
  precision * |traceSum A k| < |(A ^ k).trace / k|

/-- Both the term and the sum of order `k` vanish (0/0). -/
def Spec.Vanishing (A : Matrix (Fin N) (Fin N) ℝ) (k : ℕ) : Prop :=
  traceSum A k = 0 ∧ (A ^ k).trace = 0

theorem rel_iterate (precision : ℝ) (M : Fin (d + 1) → Matrix (Fin N) (Fin N) ℝ) (r0 : AbsQuot) (j : ℕ) :
    ((rtStep M)^[j + 1] { pw := M, sum := fun i => (M i).trace / 1, n := 2, rel := r0 }).rel.gt
      (.num precision) = true ↔
    ¬ Vanishing (M 0) (j + 2) ∧ ∃ i, TermTooBig precision (M i) (j + 2) := by
  obtain ⟨h1, h2, h3⟩ := rtStep_iterate M r0 j
  have hadd : ∀ i : Fin (d + 1),
      (M i * ((rtStep M)^[j] { pw := M, sum := fun i => (M i).trace / 1, n := 2, rel := r0 }).pw i).trace /
      (((rtStep M)^[j] { pw := M, sum := fun i => (M i).trace / 1, n := 2, rel := r0 }).n : ℝ) =
      (M i ^ (j + 2)).trace / ((j + 2 : ℕ) : ℝ) := by
    intro i
    rw [h1, h3, ← pow_succ']
  have hsum : ∀ i : Fin (d + 1),
      ((rtStep M)^[j] { pw := M, sum := fun i => (M i).trace / 1, n := 2, rel := r0 }).sum i +
      (M i ^ (j + 2)).trace / ((j + 2 : ℕ) : ℝ) = traceSum (M i) (j + 2) := by
    intro i
    rw [h2]
    unfold traceSum
    rw [Finset.sum_Icc_succ_top (b := j + 1) (by omega)]
  rw [Function.iterate_succ_apply']
  simp only [rtStep]
  rw [pyMax_gt]
  simp only [hadd, hsum]
  rw [Ne, absQuot_nan]
  have hj : ((j + 2 : ℕ) : ℝ) ≠ 0 := by positivity
  refine and_congr (not_congr ?_) ?_
  · unfold Vanishing
    rw [div_eq_zero_iff]
    constructor
    · rintro ⟨h | h, h'⟩
      · exact ⟨h', h⟩
      · exact absurd h hj
    · rintro ⟨h, h'⟩
      exact ⟨.inl h', h⟩
  · simp only [List.mem_cons, List.mem_ofFn, exists_eq_or_imp]
    constructor
    · rintro (h | ⟨b, ⟨i, rfl⟩, h⟩)
      · exact ⟨0, (AbsQuot.gt_num _ _ _).1 h⟩
      · exact ⟨i.succ, (AbsQuot.gt_num _ _ _).1 h⟩
    · rintro ⟨i, hi⟩
      refine Fin.cases (fun h => ?_) (fun i h => ?_) i hi
      · exact .inl ((AbsQuot.gt_num _ _ _).2 h)
      · exact .inr ⟨_, ⟨i, rfl⟩, (AbsQuot.gt_num _ _ _).2 h⟩

/-- The stopping rule of the code at order `k`. -/
def Spec.StopsAt (precision : ℝ) (M : Fin (d + 1) → Matrix (Fin N) (Fin N) ℝ) (k : ℕ) : Prop :=
  Vanishing (M 0) k ∨ ∀ i, ¬ TermTooBig precision (M i) k

theorem rel_iterate_not (precision : ℝ) (M : Fin (d + 1) → Matrix (Fin N) (Fin N) ℝ) (r0 : AbsQuot)
    (j : ℕ) : ¬ ((rtStep M)^[j + 1]
      { pw := M, sum := fun i => (M i).trace / 1, n := 2, rel := r0 }).rel.gt
      (.num precision) = true ↔ StopsAt precision M (j + 2) := by
  rw [rel_iterate]
  unfold StopsAt
  push Not
  rw [or_iff_not_imp_left]

/-- **C18 (exact rule).** For `precision < 1`: a value returned by the automatic expansion is the partial
sum up to the first order `k ≥ 2` satisfying the stopping rule, and `k+1` is recorded.  The rule holds if
the last term is at most `precision` times the sum in every slice, or if in the first slice both vanish. -/
theorem C18_stopping {precision : ℝ} (hp : precision < 1) {M : Fin (d + 1) → Matrix (Fin N) (Fin N) ℝ}
    {fuel : ℕ} {R : Fin (d + 1) → ℝ} {c : ℕ} (h : roundtripsAuto precision M fuel = some (R, c)) :
    ∃ k, 2 ≤ k ∧ (∀ i, R i = -traceSum (M i) k) ∧ c = k + 1 ∧ StopsAt precision M k ∧
      ∀ j, 2 ≤ j → j < k → ¬ StopsAt precision M j := by
  unfold roundtripsAuto at h
  rw [Option.map_eq_some_iff] at h
  obtain ⟨s, hs, he⟩ := h
  obtain ⟨j, rfl, h2, h3⟩ := whileLoop_total_inv _ _ _ hs
  cases j with
  | zero =>
    exfalso
    apply h2
    simpa [AbsQuot.gt] using hp
  | succ j =>
    rw [rel_iterate_not] at h2
    obtain ⟨_, e2, e3⟩ := rtStep_iterate M (.num 1) (j + 1)
    cases he
    refine ⟨j + 2, by omega, fun i => ?_, ?_, h2, fun i hi hi' => ?_⟩
    · simp only
      rw [e2]
    · rw [e3]
    · have := h3 (i - 1) (by omega)
      obtain ⟨i', rfl⟩ : ∃ i', i = i' + 2 := ⟨i - 2, by omega⟩
      rw [show i' + 2 - 1 = i' + 1 by omega] at this
      rw [← rel_iterate_not precision M (.num 1)]
      exact not_not.2 this

/-- **C18 (partial).** If in the first slice the sum does not vanish together with its last term, the
returned value is the partial sum up to the first order `k ≥ 2` whose term is at most `precision` times
the sum in every slice; the recorded number is `k+1`.  Missing with respect to the full claim: the case of
a first slice with 0/0, where the claim is false. -/
theorem C18_last_term_partial {precision : ℝ} (hp : precision < 1)
    {M : Fin (d + 1) → Matrix (Fin N) (Fin N) ℝ}
    (h0 : ∀ k, 2 ≤ k → ¬ (traceSum (M 0) k = 0 ∧ (M 0 ^ k).trace = 0))
    {fuel : ℕ} {R : Fin (d + 1) → ℝ} {c : ℕ} (h : roundtripsAuto precision M fuel = some (R, c)) :
    ∃ k, 2 ≤ k ∧ (∀ i, R i = -traceSum (M i) k) ∧ c = k + 1 ∧
      (∀ i, |(M i ^ k).trace / k| ≤ precision * |traceSum (M i) k|) ∧
      ∀ j, 2 ≤ j → j < k → ∃ i, precision * |traceSum (M i) j| < |(M i ^ j).trace / j| := by
  obtain ⟨k, h1, h2, h3, h4, h5⟩ := C18_stopping hp h
  refine ⟨k, h1, h2, h3, ?_, fun j hj hj' => ?_⟩
  · rcases h4 with h4 | h4
    · exact absurd h4 (h0 k h1)
    · exact fun i => not_lt.1 (h4 i)
  · have := h5 j hj hj'
    unfold StopsAt at this
    push Not at this
    exact this.2

/-- **C18 (refutation).** Two slices, the first one zero: the expansion of the second slice is cut off at
order two although its last term is 20% of the sum. -/
theorem C18_refuted : ∃ (M : Fin 2 → Matrix (Fin 1) (Fin 1) ℝ) (fuel : ℕ) (R : Fin 2 → ℝ),
    roundtripsAuto (1 / 10000) M fuel = some (R, 3) ∧ R 1 = -traceSum (M 1) 2 ∧
    ¬ |(M 1 ^ 2).trace / 2| ≤ 1 / 10000 * |traceSum (M 1) 2| := by
  let M : Fin 2 → Matrix (Fin 1) (Fin 1) ℝ := ![0, !![1 / 2]]
  have hstop : StopsAt (1 / 10000) M 2 := by
    left
    refine ⟨?_, ?_⟩ <;> simp [M, traceSum, Finset.sum_Icc_succ_top]
  have hrun := whileLoop_total_run (cond := fun s : RTState 2 1 => s.rel.gt (.num (1 / 10000)) = true)
    (f := rtStep M) 1
    { pw := M, sum := fun i => (M i).trace / 1, n := 2, rel := .num 1 }
    (fun i hi => by
      have : i = 0 := by omega
      subst this
      simp [AbsQuot.gt]; norm_num)
    ((rel_iterate_not _ M (.num 1) 0).2 hstop)
  obtain ⟨_, e2, e3⟩ := rtStep_iterate M (.num 1) 1
  refine ⟨M, 2, fun i => -traceSum (M i) 2, ?_, rfl, ?_⟩
  · unfold roundtripsAuto
    rw [hrun, Option.map_some, e3]
    simp only [e2]
  · norm_num [M, traceSum, Finset.sum_Icc_succ_top, pow_two]

/-- **C18 (termination).** For eigenvalues inside the unit disc and `ln|det(1-M)| ≠ 0` in every slice,
the automatic expansion terminates for every positive precision. -/
theorem C18_terminates {precision : ℝ} (hp : 0 < precision) (hp1 : precision < 1)
    {M : Fin (d + 1) → Matrix (Fin N) (Fin N) ℝ} (hM : ∀ i, SpectrumInDisc (M i))
    (hdet : ∀ i, Real.log |(1 - M i).det| ≠ 0) :
    ∃ fuel R, roundtripsAuto precision M fuel = some R := by
  have hev : ∀ᶠ k : ℕ in atTop, ∀ i, |(M i ^ k).trace / k| < precision * |traceSum (M i) k| := by
    rw [eventually_all]
    intro i
    have h1 : Tendsto (fun k : ℕ => |(M i ^ k).trace / k|) atTop (𝓝 0) := by
      have := (hasSum_trace_real (M i) (hM i)).summable.tendsto_atTop_zero.abs
      simpa using this
    have h2 := ((traceSum_tendsto (hM i)).abs).const_mul precision
    refine h1.eventually_lt h2 ?_
    have : 0 < |(-Real.log |(1 - M i).det|)| := abs_pos.2 (neg_ne_zero.2 (hdet i))
    positivity
  obtain ⟨K, hK⟩ := eventually_atTop.1 hev
  have hex : ∃ j, StopsAt precision M (j + 2) :=
    ⟨K, .inr fun i => not_lt.2 (hK (K + 2) (by omega) i).le⟩
  have hrun := whileLoop_total_run (cond := fun s : RTState (d + 1) N => s.rel.gt (.num precision) = true)
    (f := rtStep M) (Nat.find hex + 1)
    { pw := M, sum := fun i => (M i).trace / 1, n := 2, rel := .num 1 }
    (fun i hi => by
      cases i with
      | zero => simpa [AbsQuot.gt] using hp1
      | succ i =>
        have := Nat.find_min hex (m := i) (by omega)
        rw [← rel_iterate_not precision M (.num 1)] at this
        exact not_not.1 this)
    ((rel_iterate_not precision M (.num 1) _).2 (Nat.find_spec hex))
  exact ⟨_, _, by unfold roundtripsAuto; rw [hrun]; rfl⟩

/-- The hypotheses are met by the single matrix `[[1/2]]`. -/
example : ∃ fuel R, roundtripsAuto (1 / 10000) (fun _ : Fin 1 => !![(1 : ℝ) / 2]) fuel = some R := by
  refine C18_terminates (by norm_num) (by norm_num) (fun i => C17_row_norm fun j => ?_) fun i => ?_
  · fin_cases j; norm_num [abs_of_pos]
  · rw [Matrix.det_fin_one]
    have : (1 - !![(1 : ℝ) / 2] : Matrix (Fin 1) (Fin 1) ℝ) 0 0 = 1 / 2 := by norm_num
    rw [this, abs_of_pos (by norm_num)]
    exact (Real.log_neg (by norm_num) (by norm_num)).ne

end CasSph
