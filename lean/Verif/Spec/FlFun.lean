import Verif.Model.FloatBessel

/-! # What is assumed of rounded operations -/

namespace CasSph.Spec

/-- Every operation has a relative error of at most `u`. -/
structure RelErr (A : FlFun) (u : ℝ) : Prop where
  u0 : 0 ≤ u
  u1 : u ≤ 1 / 100
  pi : |A.pi - Real.pi| ≤ u * Real.pi
  tenth : |A.tenth - 1 / 10| ≤ u * (1 / 10)
  add : ∀ a b, |A.add a b - (a + b)| ≤ u * |a + b|
  sub : ∀ a b, |A.sub a b - (a - b)| ≤ u * |a - b|
  mul : ∀ a b, |A.mul a b - a * b| ≤ u * |a * b|
  div : ∀ a b, b ≠ 0 → |A.div a b - a / b| ≤ u * |a / b|
  pow : ∀ a n, |A.pow a n - a ^ n| ≤ u * |a ^ n|
  log : ∀ a, 0 < a → |A.log a - Real.log a| ≤ u * |Real.log a|
  exp : ∀ a, |A.exp a - Real.exp a| ≤ u * Real.exp a

end CasSph.Spec
