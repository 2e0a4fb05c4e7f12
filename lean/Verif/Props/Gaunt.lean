import Verif.Lemmas.Gaunt

/-! # C51, C52: Gaunt coefficients (cython_gaunt.pyx) -/

namespace CasSph

/-- **C51.** `gaunt` never divides by zero or leaves an array, and returns `min(l,lp)+1` numbers. -/
theorem C51_gaunt_total (l lp : ℕ) (m : ℤ) :
    ∃ g, gaunt l lp m = .ok g ∧ g.length = min l lp + 1 :=
  ⟨_, gaunt_ok l lp m, by simp⟩

/-- **C51.** All coefficients vanish for `|m| > min(l, lp)`. -/
theorem C51_gaunt_zero {l lp : ℕ} {m : ℤ} (h : (min l lp : ℤ) < |m|) {g : List ℝ} (hg : gaunt l lp m = .ok g) :
    ∀ x ∈ g, x = 0 := by
  rw [gaunt_ok] at hg
  cases hg
  intro x hx
  obtain ⟨i, -, rfl⟩ := List.mem_map.mp hx
  rw [Int.abs_eq_natAbs] at h
  exact gnt_big (by omega) i

/-- **C51.** For `|m| ≤ min(l, lp)` the coefficient of the highest degree `l + lp` is positive; in particular
the result is not identically zero. -/
theorem C51_gaunt_top_pos {l lp : ℕ} {m : ℤ} (h : |m| ≤ (min l lp : ℤ)) {g : List ℝ} (hg : gaunt l lp m = .ok g) :
    ∃ x, g.getLast? = some x ∧ 0 < x := by
  rw [gaunt_ok] at hg
  cases hg
  refine ⟨gnt l lp m (min l lp), ?_, ?_⟩
  · rw [List.range_succ, List.map_append, List.map_singleton]
    simp
  · rw [Int.abs_eq_natAbs] at h
    unfold gnt
    rw [if_neg (by omega), Nat.sub_self]
    simp only [gTop]
    positivity

example : (min 1 2 : ℤ) < |(-2 : ℤ)| := by norm_num
example : |(-1 : ℤ)| ≤ (min 1 2 : ℤ) := by norm_num

/-- **C52.** The Gaunt coefficients are symmetric in the two degrees and even in `m`. -/
theorem C52_gaunt_symm (l lp : ℕ) (m : ℤ) :
    gaunt l lp m = gaunt lp l m ∧ gaunt l lp m = gaunt l lp (-m) := by
  rw [gaunt_ok, gaunt_ok, gaunt_ok, min_comm]
  refine ⟨?_, ?_⟩
  · congr 1; exact List.map_congr_left fun i _ => gnt_symm l lp m i
  · congr 1; exact List.map_congr_left fun i _ => (gnt_neg l lp m i).symm

/-- Test: `gaunt(1, 1, 0)` is `[1/√(4π), 1/√(5π)]`. -/
example : gaunt 1 1 0 = .ok [1 / Real.sqrt (4 * Real.pi), 1 / Real.sqrt (5 * Real.pi)] := by
  rw [gaunt_ok]
  have hp := Real.pi_pos
  have e1 : lgam (2 * ((1 : ℕ) : ℝ) + 1) = Real.log 2 := by
    have := lgam_nat 2; norm_num [Nat.factorial] at this ⊢; exact this
  have e2 : lgam ((((1 : ℕ) : ℝ) + ((1 : ℕ) : ℝ)) + 1) = Real.log 2 := by
    have := lgam_nat 2; norm_num [Nat.factorial] at this ⊢; exact this
  have e3 : lgam (((1 : ℕ) : ℝ) + 1) = 0 := by
    have := lgam_nat 1; norm_num [Nat.factorial] at this ⊢; exact this
  have e4 : lgam (2 * (((1 : ℕ) : ℝ) + ((1 : ℕ) : ℝ)) + 1) = Real.log 24 := by
    have := lgam_nat 4; norm_num [Nat.factorial] at this ⊢; exact this
  have hmax : Real.exp (gauntLnMax 1 1 0) = 1 / Real.sqrt Real.pi := by
    unfold gauntLnMax
    rw [Int.cast_zero, sub_zero, add_zero, e1, e2, e3, e4]
    have h9 : Real.log (2 * ((1 : ℕ) : ℝ) + 1) = Real.log 3 := by norm_num
    rw [h9]
    have h24 : Real.log 24 = 3 * Real.log 2 + Real.log 3 := by
      rw [show (24 : ℝ) = 2 ^ 3 * 3 by norm_num, Real.log_mul (by norm_num) (by norm_num), Real.log_pow]; norm_num
    have h4 : Real.log (4 * Real.pi) = 2 * Real.log 2 + Real.log Real.pi := by
      rw [show (4 : ℝ) = 2 ^ 2 by norm_num, Real.log_mul (by norm_num) hp.ne', Real.log_pow]; norm_num
    rw [h24, h4]
    have : Real.log 2 + Real.log 2 + 2 * Real.log 2 - 0 - 0 - (3 * Real.log 2 + Real.log 3) - 0 - 0 + 0.5 * (0 + 0 - 0 - 0) +
        0.5 * (Real.log 3 + Real.log 3 - (2 * Real.log 2 + Real.log Real.pi)) = -(Real.log (Real.sqrt Real.pi)) := by
      rw [Real.log_sqrt hp.le]; ring
    rw [this, Real.exp_neg, Real.exp_log (Real.sqrt_pos.mpr hp), one_div]
  have s4 : Real.sqrt (4 * Real.pi) = 2 * Real.sqrt Real.pi := by
    rw [Real.sqrt_mul (by norm_num), show (4 : ℝ) = 2 ^ 2 by norm_num, Real.sqrt_sq (by norm_num)]
  have s5 : Real.sqrt (5 * Real.pi) = Real.sqrt 5 * Real.sqrt Real.pi := Real.sqrt_mul (by norm_num) _
  have hs := Real.sqrt_pos.mpr hp
  have h5 : (0 : ℝ) < Real.sqrt 5 := Real.sqrt_pos.mpr (by norm_num)
  have r : (List.range (min 1 1 + 1)).map (gnt 1 1 0) = [gnt 1 1 0 0, gnt 1 1 0 1] := rfl
  rw [r]
  have g0 : gnt 1 1 0 0 = 1 / Real.sqrt (4 * Real.pi) := by
    simp only [gnt, s4, lppMin]
    norm_num
    simp only [gTop, hmax]
    norm_num
    try ring
  have g1 : gnt 1 1 0 1 = 1 / Real.sqrt (5 * Real.pi) := by
    simp only [gnt, s5, lppMin]
    norm_num
    simp only [gTop, hmax]
    norm_num
    try ring
  rw [g0, g1]

end CasSph
