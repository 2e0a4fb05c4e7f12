import Mathlib.Data.Int.Notation
import Mathlib.Data.List.Basic

/-!
# Specification of the coefficients a round trip needs

Nothing here refers to the model of the code.
-/

namespace CasSph.Spec

/-- `c` lists the values `f l` for exactly the angular momenta `l = first, first+1, …, last`. -/
def ListsFrom {γ : Type} (f : ℕ → γ) (first last : ℕ) (c : List γ) : Prop :=
  c.length = last + 1 - first ∧ ∀ i, first + i ≤ last → c[i]? = some (f (first + i))

/-- The lowest angular momentum of the subspace with z-projection `m`. -/
def lowest (m : ℤ) : ℕ := if m ≤ 1 then 1 else m.toNat

end CasSph.Spec
