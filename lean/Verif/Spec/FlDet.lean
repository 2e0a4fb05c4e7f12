import Verif.Model.FloatDet

/-! # Partial pivoting and growth of the elements -/

namespace CasSph.Spec

/-- The pivot has the largest modulus in its column. -/
def IsPartial (piv : Pivoting) : Prop := ∀ (n : ℕ) (a : Matrix (Fin (n + 1)) (Fin (n + 1)) ℝ) (i : Fin (n + 1)), |a i 0| ≤ |a (piv n a) 0|

/-- No element of the matrix and of the matrices computed from it by elimination exceeds `ρ` in modulus. -/
def GrowthLE (A : FlFun) (piv : Pivoting) (ρ : ℝ) : ∀ n : ℕ, Matrix (Fin n) (Fin n) ℝ → Prop
  | 0, _ => True
  | n + 1, a => (∀ i j, |a i j| ≤ ρ) ∧ GrowthLE A piv ρ n (A.elim a (piv n a))

end CasSph.Spec
