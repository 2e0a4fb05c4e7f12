import Mathlib.Analysis.Real.Sqrt
import Mathlib.Data.Int.Log
import Mathlib.Algebra.Order.Field.Power
import Mathlib.Tactic.Positivity
import Mathlib.Tactic.Linarith
import Mathlib.Tactic.Ring
import Mathlib.Tactic.FieldSimp
import Mathlib.Tactic.NormNum
import Mathlib.Algebra.Order.Floor.Ring

/-! # Binary floating-point numbers with `p` bits and unlimited exponents -/

namespace CasSph.Spec

/-- `x` is a binary floating-point number with `p` bits. -/
def IsFloat (p : ℕ) (x : ℝ) : Prop := ∃ m e : ℤ, |m| ≤ 2 ^ p ∧ x = m * 2 ^ e

/-- Rounding towards minus infinity to `p` bits. -/
noncomputable def roundDown (p : ℕ) (x : ℝ) : ℝ :=
  ⌊x / 2 ^ (Int.log 2 |x| - p + 1)⌋ * 2 ^ (Int.log 2 |x| - p + 1)

theorem isFloat_zero (p : ℕ) : IsFloat p 0 := ⟨0, 0, by positivity, by simp⟩

theorem isFloat_pow (p : ℕ) (d : ℤ) : IsFloat p (2 ^ d) := ⟨1, d, by simpa using one_le_pow₀ (by norm_num : (1 : ℤ) ≤ 2), by simp⟩

theorem IsFloat.abs {p : ℕ} {x : ℝ} (h : IsFloat p x) : IsFloat p |x| := by
  obtain ⟨m, e, hm, rfl⟩ := h
  refine ⟨|m|, e, by simpa using hm, ?_⟩
  rw [abs_mul, abs_of_pos (by positivity : (0 : ℝ) < 2 ^ e), Int.cast_abs]

theorem IsFloat.scale {p : ℕ} {x : ℝ} (h : IsFloat p x) (d : ℤ) : IsFloat p (x * 2 ^ d) := by
  obtain ⟨m, e, hm, rfl⟩ := h
  exact ⟨m, e + d, hm, by rw [zpow_add₀ (by norm_num)]; ring⟩

/-- `2^log|x| ≤ |x| < 2^(log|x|+1)` -/
theorem log_bounds {x : ℝ} (hx : x ≠ 0) : (2 : ℝ) ^ Int.log 2 |x| ≤ |x| ∧ |x| < 2 ^ (Int.log 2 |x| + 1) := by
  have h0 : 0 < |x| := abs_pos.mpr hx
  exact ⟨by simpa using Int.zpow_log_le_self (b := 2) (by norm_num) h0, by simpa using Int.lt_zpow_succ_log_self (b := 2) (by norm_num) |x|⟩

theorem roundDown_isFloat {p : ℕ} (x : ℝ) : IsFloat p (roundDown p x) := by
  refine ⟨⌊x / 2 ^ (Int.log 2 |x| - p + 1)⌋, Int.log 2 |x| - p + 1, ?_, rfl⟩
  by_cases hx : x = 0
  · subst hx; simp
  obtain ⟨-, h⟩ := log_bounds hx
  set E : ℤ := Int.log 2 |x| - p + 1 with hE
  have hb : |x / 2 ^ E| ≤ 2 ^ p := by
    rw [abs_div, abs_of_pos (by positivity : (0 : ℝ) < 2 ^ E), div_le_iff₀ (by positivity)]
    refine h.le.trans (le_of_eq ?_)
    rw [← zpow_natCast, ← zpow_add₀ (by norm_num)]
    congr 1
    omega
  rw [abs_le] at hb ⊢
  constructor
  · rw [Int.le_floor]; push_cast; exact hb.1
  · have := (Int.floor_le (x / 2 ^ E)).trans hb.2
    exact_mod_cast this

theorem roundDown_err {p : ℕ} (x : ℝ) : |roundDown p x - x| ≤ 2 ^ (1 - (p : ℤ)) * |x| := by
  by_cases hx : x = 0
  · subst hx; simp [roundDown]
  obtain ⟨h, -⟩ := log_bounds hx
  set E : ℤ := Int.log 2 |x| - p + 1 with hE
  have e : roundDown p x - x = (⌊x / 2 ^ E⌋ - x / 2 ^ E) * 2 ^ E := by
    unfold roundDown
    rw [sub_mul, div_mul_cancel₀ _ (by positivity : (2 : ℝ) ^ E ≠ 0)]
  have h1 := Int.floor_le (x / 2 ^ E)
  have h2 := Int.lt_floor_add_one (x / 2 ^ E)
  rw [e, abs_mul, abs_of_pos (by positivity : (0 : ℝ) < 2 ^ E)]
  have h3 : |(⌊x / 2 ^ E⌋ : ℝ) - x / 2 ^ E| ≤ 1 := by rw [abs_le]; constructor <;> linarith
  have h4 : (2 : ℝ) ^ E = 2 ^ (1 - (p : ℤ)) * 2 ^ Int.log 2 |x| := by
    rw [← zpow_add₀ (by norm_num)]; congr 1; omega
  calc _ ≤ 1 * (2 : ℝ) ^ E := mul_le_mul_of_nonneg_right h3 (by positivity)
    _ = 2 ^ (1 - (p : ℤ)) * 2 ^ Int.log 2 |x| := by rw [one_mul, h4]
    _ ≤ _ := mul_le_mul_of_nonneg_left h (by positivity)

/-- Representable numbers are not changed. -/
theorem roundDown_fix {p : ℕ} (hp : 1 ≤ p) {x : ℝ} (h : IsFloat p x) : roundDown p x = x := by
  by_cases hx : x = 0
  · subst hx; simp [roundDown]
  obtain ⟨hlo, hhi⟩ := log_bounds hx
  obtain ⟨m, e, hm, hxe⟩ := h
  set E : ℤ := Int.log 2 |x| - p + 1 with hE
  -- `x / 2 ^ E` is an integer
  have key : ∃ z : ℤ, x / 2 ^ E = z := by
    by_cases hle : E ≤ e
    · refine ⟨m * 2 ^ (e - E).toNat, ?_⟩
      rw [hxe]
      push_cast
      rw [mul_div_assoc, ← zpow_sub₀ (by norm_num : (2 : ℝ) ≠ 0), ← zpow_natCast, Int.toNat_of_nonneg (by omega)]
    · -- then `|m| = 2 ^ p` and `x` is a power of two
      push Not at hle
      have h1 : (2 : ℝ) ^ Int.log 2 |x| ≤ |(m : ℝ)| * 2 ^ e := by
        have : |x| = |(m : ℝ)| * 2 ^ e := by rw [hxe, abs_mul, abs_of_pos (by positivity : (0 : ℝ) < 2 ^ e)]
        rw [← this]; exact hlo
      have hmr : |(m : ℝ)| ≤ 2 ^ (p : ℤ) := by rw [zpow_natCast]; exact_mod_cast hm
      have h2 : (2 : ℝ) ^ Int.log 2 |x| ≤ 2 ^ ((p : ℤ) + e) := by
        rw [zpow_add₀ (by norm_num)]
        exact h1.trans (mul_le_mul_of_nonneg_right hmr (by positivity))
      have h3 : Int.log 2 |x| ≤ p + e := (zpow_le_zpow_iff_right₀ (by norm_num : (1 : ℝ) < 2)).mp h2
      have h4 : Int.log 2 |x| = p + e := by omega
      have h5 : E = e + 1 := by omega
      have h6 : |(m : ℝ)| = 2 ^ (p : ℤ) := by
        refine le_antisymm hmr ?_
        rw [h4, zpow_add₀ (by norm_num)] at h1
        exact le_of_mul_le_mul_right h1 (by positivity)
      have h7 : |m| = 2 * 2 ^ (p - 1) := by
        rw [← pow_succ', Nat.sub_add_cancel hp]
        rw [zpow_natCast] at h6
        exact_mod_cast h6
      obtain ⟨z, hz⟩ : ∃ z : ℤ, m = 2 * z := by
        rcases abs_eq (by positivity) |>.mp h7 with h | h
        · exact ⟨_, h⟩
        · exact ⟨-2 ^ (p - 1), by rw [h]; ring⟩
      refine ⟨z, ?_⟩
      rw [hxe, h5, zpow_add_one₀ (by norm_num), hz]
      push_cast
      field_simp
  obtain ⟨z, hz⟩ := key
  unfold roundDown
  rw [hz, Int.floor_intCast, ← hz, div_mul_cancel₀ _ (by positivity)]

end CasSph.Spec
