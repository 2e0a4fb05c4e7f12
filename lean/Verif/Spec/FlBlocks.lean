import Verif.Model.FloatBlocks
import Verif.Spec.FlFun
import Mathlib.Data.List.Perm.Basic

/-! # Summation in some order, and errors of the factors of the round-trip matrix -/

namespace CasSph.Spec

/-- `s` is a result of adding up the elements of the list: in any order and with any brackets. -/
inductive SumOf (A : FlFun) : List ℝ → ℝ → Prop
  | nil : SumOf A [] 0
  | one (x : ℝ) : SumOf A [x] x
  | add {xs ys : List ℝ} {s t : ℝ} : SumOf A xs s → SumOf A ys t → xs ≠ [] → ys ≠ [] → SumOf A (xs ++ ys) (A.add s t)
  | perm {xs ys : List ℝ} {s : ℝ} : xs.Perm ys → SumOf A xs s → SumOf A ys s

/-- A function for the sums over axis 3. -/
def Sums (A : FlFun) (sum : (p : ℕ) → (Fin p → ℝ) → ℝ) : Prop := ∀ (p : ℕ) (f : Fin p → ℝ), SumOf A (List.ofFn f) (sum p f)

/-- The factors `e'` of the round-trip matrix are those of `e` up to errors: `δ` times those of `e0` for the Mie coefficients,
relative errors of at most `ε` for the translation coefficients; amplitudes and scaling factors are taken together. -/
structure ElemErr {n p : ℕ} (δ ε : ℝ) (e' e e0 : RTElems n p) : Prop where
  aTE : ∀ i, |e'.aTE i * Real.exp (e'.a2 i) - e.aTE i * Real.exp (e.a2 i)| ≤ δ * |e0.aTE i * Real.exp (e0.a2 i)|
  aTM : ∀ i, |e'.aTM i * Real.exp (e'.a2 i) - e.aTM i * Real.exp (e.a2 i)| ≤ δ * |e0.aTM i * Real.exp (e0.a2 i)|
  bTE : ∀ s, |e'.bTE s * Real.exp (e'.b2 s) - e.bTE s * Real.exp (e.b2 s)| ≤ δ * |e0.bTE s * Real.exp (e0.b2 s)|
  bTM : ∀ s, |e'.bTM s * Real.exp (e'.b2 s) - e.bTM s * Real.exp (e.b2 s)| ≤ δ * |e0.bTM s * Real.exp (e0.b2 s)|
  V0 : ∀ i s, |e'.V0 i s * Real.exp (e'.V4 i s) - e.V0 i s * Real.exp (e.V4 i s)| ≤ ε * |e.V0 i s * Real.exp (e.V4 i s)|
  V1 : ∀ i s, |e'.V1 i s * Real.exp (e'.V4 i s) - e.V1 i s * Real.exp (e.V4 i s)| ≤ ε * |e.V1 i s * Real.exp (e.V4 i s)|
  V2 : ∀ i s, |e'.V2 i s * Real.exp (e'.V4 i s) - e.V2 i s * Real.exp (e.V4 i s)| ≤ ε * |e.V2 i s * Real.exp (e.V4 i s)|
  V3 : ∀ i s, |e'.V3 i s * Real.exp (e'.V4 i s) - e.V3 i s * Real.exp (e.V4 i s)| ≤ ε * |e.V3 i s * Real.exp (e.V4 i s)|

/-- The logarithms of the scaling factors have moduli of at most `Z`. -/
structure LogSize {n p : ℕ} (Z : ℝ) (e : RTElems n p) : Prop where
  a2 : ∀ i, |e.a2 i| ≤ Z
  b2 : ∀ s, |e.b2 s| ≤ Z
  V4 : ∀ i s, |e.V4 i s| ≤ Z

/-- Factor of growth of the errors in `blockmatrices`. -/
noncomputable def asmErr (u Z δ ε : ℝ) (p : ℕ) : ℝ := (1 + δ) ^ 2 * (1 + ε) ^ 2 * Real.exp (40 * u * Z) * (1 + u) ^ (p + 7) - 1

end CasSph.Spec
