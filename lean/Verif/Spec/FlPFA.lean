import Verif.Model.Scattering

/-! # Plates as they enter the rounded round trips -/

namespace CasSph.Spec

/-- A perfect reflector (`none`) or the numbers that `epsilon` and `mu` return. -/
def PlateOf (m : Material) (kn : ℝ) : Option Medium → Prop
  | none => m.cls = .pec
  | some P => m.cls ≠ .pec ∧ m.medium kn = .ok P

end CasSph.Spec
