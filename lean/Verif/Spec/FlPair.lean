import Verif.Model.FloatPair
import Verif.Spec.FlMie
import Verif.Spec.FlBlocks

/-! # Errors of the Bessel functions and of the translation coefficients of a pair of spheres -/

namespace CasSph.Spec

/-- The table of Bessel functions used for the Mie coefficients of a sphere of radius `r` has errors of at most `δ`, for all
`l` from 1 to `n` and at the computed arguments; `Λ` bounds `log(1 + (2l+1)/x)` and `X` the argument in the medium. -/
structure BesselErr (A : FlMie) (T : BesTable) (mat md : Material) (n : ℕ) (k r δ Λ X : ℝ) : Prop where
  pec : mat.cls = .pec → ∀ b, md.medium k = .ok b → ∀ l, 1 ≤ l → l ≤ n → TableErr T l (A.argPEC k r b) δ
  diel : mat.cls ≠ .pec → ∀ a b, mat.medium k = .ok a → md.medium k = .ok b → ∀ l, 1 ≤ l → l ≤ n →
    TableErr T l (A.arg k r a) δ ∧ TableErr T l (A.arg k r b) δ ∧ Real.log (1 + (2 * l + 1) / (k * r * a.n)) ≤ Λ
  arg : ∀ b, md.medium k = .ok b → k * r * b.n ≤ X ∧ ∀ l : ℕ, 1 ≤ l → l ≤ n → Real.log (1 + (2 * l + 1) / (k * r * b.n)) ≤ Λ

/-- The logarithms used for the Mie coefficients of a sphere of radius `r`, for `l` from 1 to `n`, are returned by `lniknu` for the
computed arguments, which lie between 0.1 and 10. -/
structure FromCode (A : FlMie) (T : BesTable) (mat md : Material) (n : ℕ) (k r : ℝ) : Prop where
  pec : mat.cls = .pec → ∀ b, md.medium k = .ok b → ∀ l, 1 ≤ l → l ≤ n → FromLniknu A.toFlFun T l (A.argPEC k r b)
  diel : mat.cls ≠ .pec → ∀ a b, mat.medium k = .ok a → md.medium k = .ok b → ∀ l, 1 ≤ l → l ≤ n →
    FromLniknu A.toFlFun T l (A.arg k r a) ∧ FromLniknu A.toFlFun T l (A.arg k r b)

/-- All four translation coefficients, scaling included, have relative errors of at most `ε`. -/
def TransErr {n p : ℕ} (ε : ℝ) (V' V : Fin n → Fin p → VCoef) : Prop := ∀ i s,
  |(V' i s).EEab * Real.exp (V' i s).sk - (V i s).EEab * Real.exp (V i s).sk| ≤ ε * |(V i s).EEab * Real.exp (V i s).sk| ∧
  |(V' i s).EEba * Real.exp (V' i s).sk - (V i s).EEba * Real.exp (V i s).sk| ≤ ε * |(V i s).EEba * Real.exp (V i s).sk| ∧
  |(V' i s).EMab * Real.exp (V' i s).sk - (V i s).EMab * Real.exp (V i s).sk| ≤ ε * |(V i s).EMab * Real.exp (V i s).sk| ∧
  |(V' i s).EMba * Real.exp (V' i s).sk - (V i s).EMba * Real.exp (V i s).sk| ≤ ε * |(V i s).EMba * Real.exp (V i s).sk|

/-- Bound of the errors of computed Mie coefficients relative to those of perfect conductors. -/
noncomputable def mieErr (u δ Λ X Z : ℝ) (n : ℕ) : ℝ :=
  (1 + 10 * (5 * δ + 3 * u * Λ + 15 * u)) * Real.exp (2 * (3 * δ + 9 * u * (n + 1 + X)) + 2 * u * Z) - 1

end CasSph.Spec
