import Verif.Model.StratPair

/-! # Errors of the Mie coefficients and of the round-trip matrix -/

namespace CasSph.Spec

/-- A Mie coefficient as a number, without the scaling: TE. -/
noncomputable def teOf (c : MieCoef) (l : ℕ) : ℝ := c.TE l * Real.exp (c.ln l)

/-- TM. -/
noncomputable def tmOf (c : MieCoef) (l : ℕ) : ℝ := c.TM l * Real.exp (c.ln l)

/-- The coefficients `c'` differ from `c` by at most `δ` times the magnitude of `c0`, for `1 ≤ l ≤ n`. -/
def CoefErr (n : ℕ) (δ : ℝ) (c' c c0 : MieCoef) : Prop :=
  ∀ l, 1 ≤ l → l ≤ n → |teOf c' l - teOf c l| ≤ δ * |teOf c0 l| ∧ |tmOf c' l - tmOf c l| ≤ δ * |tmOf c0 l|

/-- The same translation, and Mie coefficients of both spheres with such errors. -/
structure WaveErr (lmax lssmax : ℕ) (δ : ℝ) (w' w w0 : WaveIn) : Prop where
  nL : w'.nL = w.nL
  bes : w'.bes = w.bes
  a : CoefErr lmax δ w'.a w.a w0.a
  b : CoefErr lssmax δ w'.b w.b w0.b

/-- Every entry of `M'` has a relative error of at most `δ`. -/
def EntryErr {ι : Type*} (δ : ℝ) (M' M : Matrix ι ι ℝ) : Prop := ∀ i j, |M' i j - M i j| ≤ δ * |M i j|

/-- `r1 r2/((r1 + d/2)(r2 + d/2))` for two spheres with the gap `d = L - r1 - r2`. -/
noncomputable def shrink (r1 r2 L : ℝ) : ℝ := r1 * r2 / ((r1 + (L - (r1 + r2)) / 2) * (r2 + (L - (r1 + r2)) / 2))

/-- Amplification of relative errors of the matrix: `κ/(1 - (1+κ)θ)`. -/
noncomputable def gain (κ θ : ℝ) : ℝ := κ / (1 - (1 + κ) * θ)

end CasSph.Spec
