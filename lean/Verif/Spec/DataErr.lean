import Verif.Model.Pair

/-! # Small changes of the parameters of a pair of spheres -/

namespace CasSph.Spec

/-- Both materials are perfect conductors, or neither is and the permittivities used differ by at most `2w` in their logarithms. -/
structure MatErr (w : ℝ) (mat' mat : Material) (k' k : ℝ) : Prop where
  cls : mat'.cls = .pec ↔ mat.cls = .pec
  eps : ∀ e' e, mat'.epsilon k' = .ok e' → mat.epsilon k = .ok e → |Real.log e' - Real.log e| ≤ 2 * w

/-- Parameters of an oscillator within factors `exp(±v)`. -/
structure OscErr (v : ℝ) (p' p : Osc) : Prop where
  wP : |p'.wP| ≤ Real.exp v * |p.wP| ∧ |p.wP| ≤ Real.exp v * |p'.wP|
  wR : |p'.wR| ≤ Real.exp v * |p.wR| ∧ |p.wR| ≤ Real.exp v * |p'.wR|
  gamma : |p'.gamma| ≤ Real.exp v * |p.gamma| ∧ |p.gamma| ≤ Real.exp v * |p'.gamma|

/-- The logarithms of radii, distance and wavenumber differ by at most `w`, those of the permittivities by at most `2w`; the cut-offs are the same. -/
structure DataErr (w : ℝ) (P' P : PairIn) (k' k : ℝ) : Prop where
  lmax : P'.lmax = P.lmax
  lssmax : P'.lssmax = P.lssmax
  r1 : |Real.log P'.r1 - Real.log P.r1| ≤ w
  r2 : |Real.log P'.r2 - Real.log P.r2| ≤ w
  L : |Real.log P'.L - Real.log P.L| ≤ w
  wave : |Real.log k' - Real.log k| ≤ w
  mat1 : MatErr w P'.mat1 P.mat1 k' k
  mat2 : MatErr w P'.mat2 P.mat2 k' k
  mat3 : MatErr w P'.mat3 P.mat3 k' k

/-- Bound of the resulting relative errors of the round-trip matrix, for cut-offs of at most `N` and distances (in the medium) of at most `X` wavelengths
`1/k`. -/
noncomputable def dataErr (w X : ℝ) (N : ℕ) : ℝ := Real.exp (w * (120 + 26 * (N + 1 + X))) - 1

end CasSph.Spec
