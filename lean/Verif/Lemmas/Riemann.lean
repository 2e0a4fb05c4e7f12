import Mathlib.MeasureTheory.Integral.DominatedConvergence
import Mathlib.MeasureTheory.Measure.Lebesgue.Basic
import Mathlib.MeasureTheory.Integral.Bochner.Set

/-! # Sums over an equidistant grid tend to the integral -/

namespace CasSph

open MeasureTheory Set Filter Topology

/-- step function with the values at the right end of the intervals -/
noncomputable def stepFn (f : ℝ → ℝ) (T : ℝ) (N : ℕ) (k : ℝ) : ℝ :=
  ∑ n ∈ Finset.range N, (Ioc (n * T) ((n + 1) * T)).indicator (fun _ => f ((n + 1) * T)) k

theorem stepFn_measurable (f : ℝ → ℝ) (T : ℝ) (N : ℕ) : Measurable (stepFn f T N) := by
  unfold stepFn
  exact Finset.measurable_fun_sum _ fun n _ => measurable_const.indicator measurableSet_Ioc

theorem stepFn_integral (f : ℝ → ℝ) {T : ℝ} (hT : 0 < T) (N : ℕ) :
    ∫ k in Ioi (0 : ℝ), stepFn f T N k = T * ∑ n ∈ Finset.range N, f ((n + 1) * T) := by
  unfold stepFn
  have hsub : ∀ n : ℕ, Ioc (n * T) ((n + 1) * T) ⊆ Ioi (0 : ℝ) := fun n x hx => lt_of_le_of_lt (by positivity) hx.1
  rw [integral_finsetSum _ fun n _ => ?_, Finset.mul_sum]
  · refine Finset.sum_congr rfl fun n _ => ?_
    rw [setIntegral_indicator measurableSet_Ioc, inter_eq_self_of_subset_right (hsub n), setIntegral_const, smul_eq_mul, measureReal_def,
      Real.volume_Ioc, show (n + 1) * T - n * T = T by ring, ENNReal.toReal_ofReal hT.le]
  · rw [integrable_indicator_iff measurableSet_Ioc]
    exact (integrableOn_const (by simp)).restrict

/-- value of the step function -/
theorem stepFn_val (f : ℝ → ℝ) {T : ℝ} (hT : 0 < T) (N : ℕ) {k : ℝ} (hk : 0 < k) :
    stepFn f T N k = if k ≤ N * T then f (⌈k / T⌉₊ * T) else 0 := by
  have hc : 0 < ⌈k / T⌉₊ := Nat.ceil_pos.mpr (by positivity)
  have hmem : ∀ n : ℕ, k ∈ Ioc (n * T) ((n + 1) * T) ↔ ⌈k / T⌉₊ = n + 1 := by
    intro n
    rw [Nat.ceil_eq_iff (by omega), mem_Ioc, lt_div_iff₀ hT, div_le_iff₀ hT]
    simp
  unfold stepFn
  split_ifs with h
  · have hle : ⌈k / T⌉₊ ≤ N := Nat.ceil_le.mpr (by rwa [div_le_iff₀ hT])
    have e : ⌈k / T⌉₊ = (⌈k / T⌉₊ - 1) + 1 := by omega
    rw [Finset.sum_eq_single (⌈k / T⌉₊ - 1)]
    · rw [indicator_of_mem ((hmem _).mpr e)]
      congr 2
      exact_mod_cast e.symm
    · intro n _ hne
      exact indicator_of_notMem (fun hm => hne (by have := (hmem n).mp hm; omega)) _
    · intro hn
      exact absurd (Finset.mem_range.mpr (by omega)) hn
  · refine Finset.sum_eq_zero fun n hn => indicator_of_notMem (fun hm => h ?_) _
    have h1 := hm.2
    have : (n : ℝ) + 1 ≤ N := by exact_mod_cast Finset.mem_range.mp hn
    exact h1.trans (mul_le_mul_of_nonneg_right this hT.le)

/-- Right Riemann sums of a continuous function on `(0, ∞)` below an integrable, decreasing one converge to the integral. -/
theorem riemann_limit {f g : ℝ → ℝ} (hf : ∀ k, 0 < k → ContinuousAt f k) (hg : ∀ k k', 0 < k → k ≤ k' → g k' ≤ g k)
    (hgi : IntegrableOn g (Ioi 0)) (hfg : ∀ k, 0 < k → |f k| ≤ g k) {T : ℕ → ℝ} {N : ℕ → ℕ} (hT : ∀ j, 0 < T j) (hT0 : Tendsto T atTop (𝓝 0))
    (hN : Tendsto (fun j => (N j : ℝ) * T j) atTop atTop) :
    Tendsto (fun j => T j * ∑ n ∈ Finset.range (N j), f ((n + 1) * T j)) atTop (𝓝 (∫ k in Ioi (0 : ℝ), f k)) := by
  have main := tendsto_integral_of_dominated_convergence (μ := volume.restrict (Ioi (0 : ℝ))) (F := fun j => stepFn f (T j) (N j)) (f := f) g
    (fun j => (stepFn_measurable f _ _).aestronglyMeasurable) hgi ?_ ?_
  · exact main.congr fun j => stepFn_integral f (hT j) (N j)
  · intro j
    refine (ae_restrict_iff' measurableSet_Ioi).mpr (.of_forall fun k hk => ?_)
    have hk : 0 < k := hk
    rw [stepFn_val f (hT j) _ hk]
    have hg0 : 0 ≤ g k := (abs_nonneg _).trans (hfg k hk)
    split_ifs with h
    · have hle : k ≤ ⌈k / T j⌉₊ * T j := by rw [← div_le_iff₀ (hT j)]; exact Nat.le_ceil _
      exact (hfg _ (hk.trans_le hle)).trans (hg _ _ hk hle)
    · rwa [norm_zero]
  · refine (ae_restrict_iff' measurableSet_Ioi).mpr (.of_forall fun k hk => ?_)
    have hk : 0 < k := hk
    have hlim : Tendsto (fun j => (⌈k / T j⌉₊ : ℝ) * T j) atTop (𝓝 k) := by
      refine tendsto_of_tendsto_of_tendsto_of_le_of_le tendsto_const_nhds (h := fun j => k + T j) ?_ ?_ ?_
      · simpa using hT0.const_add k
      · intro j
        simp only
        rw [← div_le_iff₀ (hT j)]; exact Nat.le_ceil _
      · intro j
        simp only
        have := (Nat.ceil_lt_add_one (by have := hT j; positivity : 0 ≤ k / T j)).le
        have := mul_le_mul_of_nonneg_right this (hT j).le
        rwa [add_mul, div_mul_cancel₀ _ (hT j).ne', one_mul] at this
    refine ((hf k hk).tendsto.comp hlim).congr' ?_
    filter_upwards [hN.eventually_ge_atTop k] with j hj
    rw [stepFn_val f (hT j) _ hk, if_pos hj]
    rfl

end CasSph
