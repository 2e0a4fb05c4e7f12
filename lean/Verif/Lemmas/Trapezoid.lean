import Verif.Lemmas.Riemann
import Mathlib.MeasureTheory.Integral.IntervalIntegral.IntegrationByParts
import Mathlib.Analysis.SpecialFunctions.Integrals.Basic

/-! # Trapezoidal sums of a function with an integrable, continuous derivative -/

namespace CasSph

open Filter Topology MeasureTheory Set

/-- One cell. -/
theorem trap_cell {F F' : ℝ → ℝ} {a b : ℝ} (hab : a ≤ b) (hc : ContinuousOn F (Icc a b)) (hd : ∀ x ∈ Ioo a b, HasDerivAt F (F' x) x)
    (hi : IntervalIntegrable F' volume a b) (c : ℝ) :
    |(b - a) * (F a + F b) / 2 - ∫ x in a..b, F x| ≤ (b - a) / 2 * ∫ x in a..b, |F' x - c| := by
  have p := intervalIntegral.integral_mul_deriv_eq_deriv_mul_of_hasDerivAt (a := a) (b := b) (u := fun x => x - (a + b) / 2) (v := F) (u' := fun _ => 1) (v' := F')
    (by fun_prop) (by rwa [uIcc_of_le hab]) (fun x _ => (hasDerivAt_id x).sub_const _)
    (fun x hx => hd x (by rwa [min_eq_left hab, max_eq_right hab] at hx)) (by simp) hi
  have q : ∫ x in a..b, (x - (a + b) / 2) * c = 0 := by
    have i1 : IntervalIntegrable (fun x : ℝ => x) volume a b := continuous_id.intervalIntegrable _ _
    have i2 : IntervalIntegrable (fun _ : ℝ => (a + b) / 2) volume a b := continuous_const.intervalIntegrable _ _
    rw [intervalIntegral.integral_mul_const, intervalIntegral.integral_sub i1 i2, integral_id, intervalIntegral.integral_const, smul_eq_mul]
    ring
  have cu : Continuous fun x : ℝ => x - (a + b) / 2 := by fun_prop
  have e : (b - a) * (F a + F b) / 2 - ∫ x in a..b, F x = ∫ x in a..b, (x - (a + b) / 2) * (F' x - c) := by
    have s : ∫ x in a..b, (x - (a + b) / 2) * (F' x - c) = (∫ x in a..b, (x - (a + b) / 2) * F' x) - ∫ x in a..b, (x - (a + b) / 2) * c := by
      rw [← intervalIntegral.integral_sub (hi.continuousOn_mul cu.continuousOn) (by apply Continuous.intervalIntegrable; fun_prop)]
      congr 1
      ext x
      ring
    rw [s, q, p]
    simp only [one_mul]
    ring
  rw [e, ← intervalIntegral.integral_const_mul]
  have hi' : IntervalIntegrable (fun x => F' x - c) volume a b := hi.sub (by simp)
  refine (intervalIntegral.abs_integral_le_integral_abs hab).trans (intervalIntegral.integral_mono_on hab ?_ ?_ fun x hx => ?_)
  · exact (hi'.continuousOn_mul cu.continuousOn).abs
  · exact hi'.abs.const_mul _
  · rw [abs_mul]
    refine mul_le_mul_of_nonneg_right ?_ (abs_nonneg _)
    rw [abs_le]
    constructor <;> linarith [hx.1, hx.2]

/-- The trapezoidal sum misses the integral by less than any multiple of the step. -/
theorem trap_limit {f f' g : ℝ → ℝ} {f0 : ℝ} (h0 : Tendsto f (𝓝[>] 0) (𝓝 f0)) (hf : ∀ k, 0 < k → HasDerivAt f (f' k) k)
    (hf' : ∀ k, 0 < k → ContinuousAt f' k) (hg : ∀ k k', 0 < k → k ≤ k' → g k' ≤ g k) (hgi : IntegrableOn g (Ioi 0)) (hfg : ∀ k, 0 < k → |f' k| ≤ g k)
    {T : ℕ → ℝ} {N : ℕ → ℕ} (hT : ∀ j, 0 < T j) (hT0 : Tendsto T atTop (𝓝 0)) :
    Tendsto (fun j => f0 / 2 + ∑ n ∈ Finset.range (N j), f ((n + 1) * T j) - (if N j = 0 then f0 else f (N j * T j)) / 2 -
      (∫ k in (0 : ℝ)..(N j * T j), f k) / T j) atTop (𝓝 0) := by
  classical
  set F : ℝ → ℝ := Function.update f 0 f0 with hFdef
  have F0 : F 0 = f0 := by simp [F]
  have Fk : ∀ k, 0 < k → F k = f k := fun k hk => by simp [F, hk.ne']
  have Fd : ∀ k, 0 < k → HasDerivAt F (f' k) k := fun k hk => (hf k hk).congr_of_eventuallyEq (by
    filter_upwards [lt_mem_nhds hk] with x hx
    exact Fk x hx)
  have Fc : ContinuousOn F (Ici 0) := by
    intro k hk
    rcases eq_or_lt_of_le (show 0 ≤ k from hk) with rfl | hk
    · have : ContinuousWithinAt F (Ioi 0) 0 := by
        rw [ContinuousWithinAt, F0]
        exact h0.congr' (by filter_upwards [self_mem_nhdsWithin] with k hk; exact (Fk k hk).symm)
      exact continuousWithinAt_Ioi_iff_Ici.1 this
    · exact (Fd k hk).continuousAt.continuousWithinAt
  have f'i : IntegrableOn f' (Ioi 0) := by
    refine hgi.mono' ?_ ((ae_restrict_iff' measurableSet_Ioi).mpr (.of_forall fun k hk => hfg k hk))
    exact ContinuousOn.aestronglyMeasurable (fun k hk => (hf' k hk).continuousWithinAt) measurableSet_Ioi
  -- the difference between the derivative and its step function
  set D : ℕ → ℝ → ℝ := fun j k => |(Iic (N j * T j)).indicator f' k - stepFn f' (T j) (N j) k| with hD
  have lim : Tendsto (fun j => ∫ k in Ioi (0 : ℝ), D j k) atTop (𝓝 (∫ _ in Ioi (0 : ℝ), (0 : ℝ))) := by
    refine tendsto_integral_of_dominated_convergence (fun k => 2 * g k) (fun j => ?_) (hgi.const_mul 2) (fun j => ?_) ?_
    · exact ((f'i.aestronglyMeasurable.indicator measurableSet_Iic).sub (stepFn_measurable _ _ _).aestronglyMeasurable).norm
    · refine (ae_restrict_iff' measurableSet_Ioi).mpr (.of_forall fun k hk => ?_)
      have hk : 0 < k := hk
      have hg0 : 0 ≤ g k := (abs_nonneg _).trans (hfg k hk)
      rw [Real.norm_eq_abs, hD]
      simp only
      rw [abs_abs, stepFn_val f' (hT j) _ hk]
      by_cases hkN : k ≤ N j * T j
      · rw [if_pos hkN, indicator_of_mem (show k ∈ Iic _ from hkN)]
        have hle : k ≤ ⌈k / T j⌉₊ * T j := by rw [← div_le_iff₀ (hT j)]; exact Nat.le_ceil _
        have := (hfg _ (hk.trans_le hle)).trans (hg _ _ hk hle)
        have := hfg k hk
        exact (abs_sub _ _).trans (by linarith)
      · rw [if_neg hkN, indicator_of_notMem (show k ∉ Iic _ from hkN)]
        simpa using hg0
    · refine (ae_restrict_iff' measurableSet_Ioi).mpr (.of_forall fun k hk => ?_)
      have hk : 0 < k := hk
      have hlim : Tendsto (fun j => (⌈k / T j⌉₊ : ℝ) * T j) atTop (𝓝 k) := by
        refine tendsto_of_tendsto_of_tendsto_of_le_of_le tendsto_const_nhds (h := fun j => k + T j) ?_ ?_ ?_
        · simpa using hT0.const_add k
        · intro j
          simp only
          rw [← div_le_iff₀ (hT j)]; exact Nat.le_ceil _
        · intro j
          simp only
          have := (Nat.ceil_lt_add_one (by have := hT j; positivity : 0 ≤ k / T j)).le
          have := mul_le_mul_of_nonneg_right this (hT j).le
          rwa [add_mul, div_mul_cancel₀ _ (hT j).ne', one_mul] at this
      have l1 : Tendsto (fun j => |f' k - f' (⌈k / T j⌉₊ * T j)|) atTop (𝓝 0) := by
        have := (tendsto_const_nhds (x := f' k)).sub ((hf' k hk).tendsto.comp hlim)
        rw [sub_self] at this
        simpa using this.abs
      refine squeeze_zero (fun j => abs_nonneg _) (fun j => ?_) l1
      rw [hD]
      simp only
      rw [stepFn_val f' (hT j) _ hk]
      by_cases hkN : k ≤ N j * T j
      · rw [if_pos hkN, indicator_of_mem (show k ∈ Iic _ from hkN)]
      · rw [if_neg hkN, indicator_of_notMem (show k ∉ Iic _ from hkN), sub_zero, abs_zero]
        exact abs_nonneg _
  rw [integral_zero] at lim
  have Di : ∀ j, IntegrableOn (D j) (Ioi 0) := fun j => by
    refine ((f'i.indicator measurableSet_Iic).sub ?_).abs
    unfold stepFn
    refine integrable_finsetSum _ fun n _ => ?_
    refine (IntegrableOn.integrable_indicator ?_ measurableSet_Ioc)
    exact integrableOn_const (by rw [Measure.restrict_apply measurableSet_Ioc]; exact ((measure_mono inter_subset_left).trans_lt measure_Ioc_lt_top).ne)
  have half := lim.const_mul (1 / 2)
  rw [mul_zero] at half
  refine squeeze_zero_norm (fun j => ?_) half
  have hTj := hT j
  set t := T j with ht
  have grid : ∀ n : ℕ, (n : ℝ) * t ≤ (n + 1 : ℕ) * t := fun n => by push_cast; nlinarith
  -- each cell
  have cell : ∀ n ∈ Finset.range (N j), |(t * (F (n * t) + F ((n + 1 : ℕ) * t)) / 2 - ∫ x in (n * t)..((n + 1 : ℕ) * t), F x)| ≤
      t / 2 * ∫ x in (n * t)..((n + 1 : ℕ) * t), D j x := by
    intro n hn
    have hn0 : 0 ≤ (n : ℝ) * t := by positivity
    have hN := Finset.mem_range.1 hn
    have c := trap_cell (grid n) (F := F) (F' := f') (Fc.mono fun x hx => hn0.trans hx.1) (fun x hx => Fd x (hn0.trans_lt hx.1))
      ((intervalIntegrable_iff_integrableOn_Ioc_of_le (grid n)).2 (f'i.mono_set fun x hx => hn0.trans_lt hx.1)) (f' ((n + 1 : ℕ) * t))
    have w : ((n + 1 : ℕ) : ℝ) * t - n * t = t := by push_cast; ring
    rw [w] at c
    refine c.trans (le_of_eq ?_)
    congr 1
    rw [intervalIntegral.integral_of_le (grid n), intervalIntegral.integral_of_le (grid n)]
    refine setIntegral_congr_fun measurableSet_Ioc fun x hx => ?_
    have hx0 : 0 < x := hn0.trans_lt hx.1
    have hle : x ≤ N j * t := hx.2.trans (mul_le_mul_of_nonneg_right (by exact_mod_cast hN) hTj.le)
    have hceil : ⌈x / t⌉₊ = n + 1 := by
      rw [Nat.ceil_eq_iff (by omega), lt_div_iff₀ hTj, div_le_iff₀ hTj]
      have := hx.2
      push_cast at this ⊢
      exact ⟨by simpa using hx.1, this⟩
    simp only [hD]
    rw [stepFn_val f' hTj _ hx0, if_pos hle, indicator_of_mem (show x ∈ Iic _ from hle), hceil]
  have sumD : ∑ n ∈ Finset.range (N j), ∫ x in (n * t)..((n + 1 : ℕ) * t), D j x ≤ ∫ k in Ioi (0 : ℝ), D j k := by
    have adj := intervalIntegral.sum_integral_adjacent_intervals (a := fun n : ℕ => (n : ℝ) * t) (n := N j) (f := D j) (μ := volume) fun n hn =>
      (intervalIntegrable_iff_integrableOn_Ioc_of_le (grid n)).2 ((Di j).mono_set fun x hx => (by positivity : 0 ≤ (n : ℝ) * t).trans_lt hx.1)
    rw [adj, intervalIntegral.integral_of_le (by simp; positivity)]
    refine setIntegral_mono_set (Di j) (.of_forall fun k => abs_nonneg _) (LE.le.eventuallyLE fun x hx => ?_)
    simpa using hx.1
  have sumF : ∑ n ∈ Finset.range (N j), ∫ x in (n * t)..((n + 1 : ℕ) * t), F x = ∫ k in (0 : ℝ)..(N j * t), f k := by
    have adj := intervalIntegral.sum_integral_adjacent_intervals (a := fun n : ℕ => (n : ℝ) * t) (n := N j) (f := F) (μ := volume) fun n hn =>
      (Fc.mono fun x hx => ?_ : ContinuousOn F (uIcc (n * t) ((n + 1 : ℕ) * t))).intervalIntegrable
    · rw [adj]
      simp only [Nat.cast_zero, zero_mul]
      refine intervalIntegral.integral_congr_ae (.of_forall fun x hx => ?_)
      rw [uIoc_of_le (by positivity)] at hx
      exact Fk x hx.1
    · rw [uIcc_of_le (grid n)] at hx
      exact (by positivity : 0 ≤ (n : ℝ) * t).trans hx.1
  have sumV : ∀ M : ℕ, ∑ n ∈ Finset.range M, (t * (F (n * t) + F ((n + 1 : ℕ) * t)) / 2) =
      t * (f0 / 2 + ∑ n ∈ Finset.range M, f ((n + 1) * t) - (if M = 0 then f0 else f (M * t)) / 2) := by
    intro M
    induction M with
    | zero => simp
    | succ M ih =>
      rw [Finset.sum_range_succ, ih, Finset.sum_range_succ, if_neg (Nat.succ_ne_zero M)]
      have e1 : F ((M + 1 : ℕ) * t) = f ((M + 1) * t) := by
        rw [Fk _ (by positivity)]; push_cast; rfl
      have e2 : F (M * t) = if M = 0 then f0 else f (M * t) := by
        split_ifs with h
        · rw [h, Nat.cast_zero, zero_mul, F0]
        · exact Fk _ (by have : 0 < (M : ℝ) := by exact_mod_cast Nat.pos_of_ne_zero h
                         positivity)
      rw [e1, e2]
      push_cast
      ring
  have key : t * |f0 / 2 + ∑ n ∈ Finset.range (N j), f ((n + 1) * t) - (if N j = 0 then f0 else f (N j * t)) / 2 -
      (∫ k in (0 : ℝ)..(N j * t), f k) / t| ≤ t * (1 / 2 * ∫ k in Ioi (0 : ℝ), D j k) := by
    rw [← abs_of_pos hTj, ← abs_mul, abs_of_pos hTj, mul_sub, ← sumV, mul_div_cancel₀ _ hTj.ne', ← sumF, ← Finset.sum_sub_distrib]
    refine (Finset.abs_sum_le_sum_abs _ _).trans ((Finset.sum_le_sum cell).trans ?_)
    rw [← Finset.mul_sum]
    have := mul_le_mul_of_nonneg_left sumD (by positivity : 0 ≤ t / 2)
    linarith
  exact le_of_mul_le_mul_left key hTj

end CasSph
