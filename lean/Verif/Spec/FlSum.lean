import Verif.Model.FloatBessel

/-! # Running sums over `m`, and the slices of Matsubara numbers -/

namespace CasSph.Spec

/-- The running sum `l 0 + 2 l 1 + … + 2 l M`, added up in this order. -/
noncomputable def runSum (A : FlFun) (l : ℕ → ℝ) : ℕ → ℝ
  | 0 => l 0
  | M + 1 => A.add (runSum A l M) (A.mul 2 (l (M + 1)))

/-- `lo, …, hi` are the Matsubara numbers of one slice: `1, …, 49`, then `50, …, 99` and so on, up to `N`. -/
def IsSlice (N lo hi : ℕ) : Prop := 1 ≤ lo ∧ lo ≤ hi ∧ ∃ q, lo = max 1 (50 * q) ∧ hi = min (50 * q + 49) N

end CasSph.Spec
