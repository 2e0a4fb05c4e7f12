import Verif.Lemmas.GauntIntegral

/-! # C77: the recursion of `gaunt` computes integrals of products of three spherical harmonics -/

namespace CasSph

open Spec

/-- **C77.** `gaunt(l, lp, m)[i]` is the integral over the sphere of `Y_l^m Y_lp^{-m} Y_p^0`, `p = |l - lp| + 2 i`. -/
theorem C77_gaunt_integral {l lp : ℕ} {m : ℤ} {g : List ℝ} (hg : gaunt l lp m = .ok g) {i : ℕ} (hi : i < g.length) :
    g[i] = gauntIntegral l lp m (((l : ℤ) - lp).natAbs + 2 * i) := by
  rw [gaunt_ok] at hg
  cases hg
  rw [List.getElem_map, List.getElem_range]
  simp only [List.length_map, List.length_range] at hi
  exact gnt_integral l lp m (by omega)

/-- **C77.** The integrals for degrees `p` that `gaunt` does not list all vanish. -/
theorem C77_other_degrees {l lp : ℕ} {m : ℤ} {g : List ℝ} (hg : gaunt l lp m = .ok g) {p : ℕ}
    (hp : ∀ i < g.length, p ≠ ((l : ℤ) - lp).natAbs + 2 * i) : gauntIntegral l lp m p = 0 := by
  rw [gaunt_ok] at hg
  cases hg
  refine gauntIntegral_other m fun i hi => ?_
  exact hp i (by simp; omega)

/-- **C77.** The product of the two harmonics is the sum of the `Y_p^0` with the coefficients returned by `gaunt`. -/
theorem C77_gaunt_expansion {l lp : ℕ} {m : ℤ} {g : List ℝ} (hg : gaunt l lp m = .ok g) {x : ℝ} (hx : x ∈ Set.Icc (-1 : ℝ) 1) :
    ylm l m x * ylm lp (-m) x = ∑ i : Fin g.length, g[i] * ylm (((l : ℤ) - lp).natAbs + 2 * (i : ℕ)) 0 x := by
  rw [gaunt_ok] at hg
  cases hg
  rw [ylm_expansion l lp m hx, ← Fin.sum_univ_eq_sum_range (fun i => gnt l lp m i * ylm (lppMin l lp + 2 * i) 0 x) (min l lp + 1)]
  have hl : ((List.range (min l lp + 1)).map (gnt l lp m)).length = min l lp + 1 := by simp
  refine Fintype.sum_equiv (finCongr hl.symm) _ _ fun i => ?_
  simp [lppMin]

/-- The Legendre polynomials of the specification satisfy Rodrigues' formula. -/
theorem C77_spec_rodrigues (n : ℕ) :
    Polynomial.C (2 ^ n * (n.factorial : ℝ)) * legendre n =
      Polynomial.C ((-1) ^ n) * Polynomial.derivative^[n] ((1 - Polynomial.X ^ 2) ^ n) :=
  legendre_rodrigues n

/-- The hypotheses of C77 can be met for all arguments (`C51_gaunt_total`), and the degrees not listed exist. -/
example : ∃ g, gaunt 2 3 (-1) = .ok g ∧ g.length = 3 ∧ (∀ i < g.length, (2 : ℕ) ≠ ((2 : ℤ) - 3).natAbs + 2 * i) := by
  refine ⟨_, gaunt_ok 2 3 (-1), by simp, ?_⟩
  intro i _
  norm_num
  omega

example : (1 / 2 : ℝ) ∈ Set.Icc (-1 : ℝ) 1 := by constructor <;> norm_num

/-- The integral is not identically zero: `∫ Y_1^1 Y_1^{-1} Y_2^0 > 0`. -/
example : 0 < gauntIntegral 1 1 1 2 := by
  have h := gnt_integral 1 1 1 (i := 1) (by norm_num)
  simp only [lppMin] at h
  norm_num at h
  rw [← h]
  unfold gnt
  rw [if_neg (by norm_num)]
  norm_num [gTop]
  positivity

end CasSph
