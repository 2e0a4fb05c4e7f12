import Verif.Spec.MSum
import Mathlib.Analysis.SpecificLimits.Basic
import Mathlib.Analysis.Normed.Group.Tannery

/-! # Sums over `m` of geometrically bounded terms -/

namespace CasSph

open Spec Filter Topology

theorem geo_Icc {q : ℝ} (q0 : 0 ≤ q) (q1 : q < 1) (a b : ℕ) : ∑ m ∈ Finset.Icc (a + 1) b, q ^ (m - 1) ≤ q ^ a / (1 - q) := by
  have hs := (hasSum_geometric_of_lt_one q0 q1).mul_left (q ^ a)
  have h1 : ∑ m ∈ Finset.Icc (a + 1) b, q ^ (m - 1) = ∑ k ∈ Finset.range (b - a), q ^ a * q ^ k := by
    rw [show Finset.Icc (a + 1) b = Finset.Ico (a + 1) (b + 1) by ext x; simp, Finset.sum_Ico_eq_sum_range]
    rw [show b + 1 - (a + 1) = b - a by omega]
    exact Finset.sum_congr rfl fun k _ => by rw [show a + 1 + k - 1 = a + k by omega, pow_add]
  rw [h1, div_eq_mul_inv]
  exact sum_le_hasSum _ (fun k _ => by positivity) hs

theorem mSum_split {d : ℕ} (v : ℕ → Fin d → ℝ) (i : Fin d) {M lmax : ℕ} (hM : M ≤ lmax) :
    mSum v lmax i = mSum v M i + 2 * ∑ m ∈ Finset.Icc (M + 1) lmax, v m i := by
  unfold mSum
  have : ∑ m ∈ Finset.Icc 1 lmax, v m i = ∑ m ∈ Finset.Icc 1 M, v m i + ∑ m ∈ Finset.Icc (M + 1) lmax, v m i := by
    rw [← Finset.sum_union]
    · exact Finset.sum_congr (by ext x; simp; omega) fun _ _ => rfl
    · rw [Finset.disjoint_left]; intro x hx hx'; simp at hx hx'; omega
  rw [this]; ring

theorem mSum_geometric {d : ℕ} {v : ℕ → Fin d → ℝ} {i : Fin d} {lmax M : ℕ} (hM : M ≤ lmax) {C q : ℝ} (q0 : 0 ≤ q) (q1 : q < 1)
    (hv : ∀ m ≤ lmax, |v m i| ≤ C * q ^ (m - 1)) :
    |mSum v M i - mSum v lmax i| ≤ 2 * C * q ^ M / (1 - q) ∧ |mSum v M i| ≤ 3 * C / (1 - q) := by
  have h0 := hv 0 (by omega)
  rw [Nat.zero_sub, pow_zero, mul_one] at h0
  have hC : 0 ≤ C := (abs_nonneg _).trans h0
  have hpart : ∀ a b, b ≤ lmax → |∑ m ∈ Finset.Icc (a + 1) b, v m i| ≤ C * (q ^ a / (1 - q)) := by
    intro a b hb
    refine (Finset.abs_sum_le_sum_abs _ _).trans ((Finset.sum_le_sum fun m hm => hv m ((Finset.mem_Icc.mp hm).2.trans hb)).trans ?_)
    rw [← Finset.mul_sum]
    exact mul_le_mul_of_nonneg_left (geo_Icc q0 q1 a b) hC
  constructor
  · rw [mSum_split v i hM, sub_add_cancel_left, abs_neg, abs_mul, abs_of_pos (by norm_num : (0 : ℝ) < 2)]
    have := hpart M lmax le_rfl
    calc _ ≤ 2 * (C * (q ^ M / (1 - q))) := by linarith
      _ = _ := by ring
  · have h1 := hpart 0 M hM
    have h5 : |v 0 i + 2 * ∑ m ∈ Finset.Icc 1 M, v m i| ≤ |v 0 i| + 2 * |∑ m ∈ Finset.Icc 1 M, v m i| := by
      refine (abs_add_le _ _).trans ?_
      rw [abs_mul, abs_of_pos (by norm_num : (0 : ℝ) < 2)]
    unfold mSum
    rw [zero_add, pow_zero] at h1
    have h4 : (0 : ℝ) < 1 - q := by linarith
    have e : C + 2 * (C * (1 / (1 - q))) ≤ 3 * C / (1 - q) := by
      rw [← sub_nonneg, show 3 * C / (1 - q) - (C + 2 * (C * (1 / (1 - q)))) = C * q / (1 - q) by field_simp; ring]
      positivity
    linarith

theorem mSum_nonpos {d : ℕ} {v : ℕ → Fin d → ℝ} {i : Fin d} {lmax M : ℕ} (hM : M ≤ lmax) (hv : ∀ m ≤ lmax, v m i ≤ 0) :
    mSum v lmax i ≤ mSum v M i ∧ mSum v M i ≤ 0 := by
  constructor
  · rw [mSum_split v i hM]
    have := Finset.sum_nonpos fun m (hm : m ∈ Finset.Icc (M + 1) lmax) => hv m (Finset.mem_Icc.mp hm).2
    linarith
  · unfold mSum
    have := Finset.sum_nonpos fun m (hm : m ∈ Finset.Icc 1 M) => hv m ((Finset.mem_Icc.mp hm).2.trans hM)
    have := hv 0 (by omega)
    linarith

theorem mSum_nonneg {d : ℕ} {v : ℕ → Fin d → ℝ} {i : Fin d} {lmax M : ℕ} (hM : M ≤ lmax) (hv : ∀ m ≤ lmax, 0 ≤ v m i) :
    0 ≤ mSum v M i ∧ mSum v M i ≤ mSum v lmax i := by
  constructor
  · unfold mSum
    have := Finset.sum_nonneg fun m (hm : m ∈ Finset.Icc 1 M) => hv m ((Finset.mem_Icc.mp hm).2.trans hM)
    have := hv 0 (by omega)
    linarith
  · rw [mSum_split v i hM]
    have := Finset.sum_nonneg fun m (hm : m ∈ Finset.Icc (M + 1) lmax) => hv m (Finset.mem_Icc.mp hm).2
    linarith

/-- Dominated convergence for the sum over `m ≤ lmax` of terms which depend on `lmax` themselves. -/
theorem mSum_limit {f : ℕ → ℕ → ℝ} {w : ℕ → ℝ} {C q : ℝ} (q0 : 0 ≤ q) (q1 : q < 1)
    (hb : ∀ lmax m, max 1 m ≤ lmax → |f lmax m| ≤ C * q ^ (m - 1)) (hlim : ∀ m, Tendsto (fun l => f l m) atTop (𝓝 (w m))) :
    ∃ v, |v| ≤ 3 * C / (1 - q) ∧ Tendsto (fun lmax => mSum (fun m (_ : Fin 1) => f lmax m) lmax 0) atTop (𝓝 v) := by
  have hC : 0 ≤ C := by
    have := (abs_nonneg _).trans (hb 1 0 (by norm_num))
    simpa using this
  have h4 : (0 : ℝ) < 1 - q := by linarith
  set g : ℕ → ℝ := fun m => 2 * C * q ^ (m - 1) with hg
  have hsum : Summable g := by
    rw [← summable_nat_add_iff 1]
    simp only [hg, Nat.add_sub_cancel]
    exact (summable_geometric_of_lt_one q0 q1).mul_left _
  have main := tendsto_tsum_of_dominated_convergence (𝓕 := atTop) (bound := g)
    (f := fun lmax m => if max 1 m ≤ lmax then (if m = 0 then (1 : ℝ) else 2) * f lmax m else 0)
    (g := fun m => (if m = 0 then (1 : ℝ) else 2) * w m) hsum ?_ ?_
  · have key : Tendsto (fun lmax => mSum (fun m (_ : Fin 1) => f lmax m) lmax 0) atTop (𝓝 (∑' m, (if m = 0 then (1 : ℝ) else 2) * w m)) := by
      refine main.congr' ?_
      filter_upwards [eventually_ge_atTop 1] with lmax hl
      rw [tsum_eq_sum (s := Finset.range (lmax + 1)) ?_]
      · rw [Finset.sum_range_succ']
        unfold mSum
        simp only [Nat.add_eq_zero_iff, one_ne_zero, and_false, if_false, if_true]
        rw [if_pos (by omega), one_mul, add_comm]
        congr 1
        rw [Finset.mul_sum, Finset.range_eq_Ico, Finset.sum_Ico_add' (fun m => if max 1 m ≤ lmax then 2 * f lmax m else 0) 0 lmax 1]
        refine Finset.sum_congr (by ext x; simp) fun m hm => ?_
        rw [Finset.mem_Icc] at hm
        rw [if_pos (by omega)]
      · intro m hm
        rw [Finset.mem_range, not_lt] at hm
        rw [if_neg (by omega)]
    refine ⟨_, ?_, key⟩
    refine le_of_tendsto key.abs ?_
    filter_upwards [eventually_ge_atTop 1] with lmax hl
    exact (mSum_geometric (v := fun m (_ : Fin 1) => f lmax m) le_rfl q0 q1 fun m hm => hb lmax m (by omega)).2
  · intro m
    refine ((hlim m).const_mul (if m = 0 then (1 : ℝ) else 2)).congr' ?_
    filter_upwards [eventually_ge_atTop (max 1 m)] with lmax hl
    rw [if_pos hl]
  · filter_upwards with lmax m
    have hp : 0 ≤ C * q ^ (m - 1) := by positivity
    split_ifs with hm h
    · have := hb lmax m hm
      rw [one_mul, Real.norm_eq_abs]
      simp only [hg]
      linarith
    · have := hb lmax m hm
      rw [norm_mul, Real.norm_of_nonneg (by norm_num : (0 : ℝ) ≤ 2), Real.norm_eq_abs]
      simp only [hg]
      linarith
    · rw [norm_zero]; simp only [hg]; linarith

end CasSph
