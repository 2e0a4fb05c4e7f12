import Verif.Model.Pair

/-! # Change of the unit of length

The code measures lengths in micrometres and wavenumbers in inverse micrometres (materials.py:13-14).  What it computes must not
depend on this choice. -/

namespace CasSph.Spec

/-- An oscillator with all frequencies multiplied by `c`. -/
def scaleOsc (c : ℝ) (o : Osc) : Osc := ⟨c * o.wP, c * o.wR, c * o.gamma⟩

/-- A material with all frequencies (plasma, resonance and relaxation frequencies and that of the permeability) multiplied by `c`.
The static permeability is no frequency. -/
def scaleMat (c : ℝ) (M : Material) : Material :=
  ⟨M.cls, M.e.map (scaleOsc c), M.b.map fun b => (b.1, c * b.2)⟩

/-- The pair of spheres with all lengths multiplied by `c` and all frequencies divided by `c`. -/
noncomputable def scalePair (c : ℝ) (P : PairIn) : PairIn :=
  { mat1 := scaleMat c⁻¹ P.mat1, mat2 := scaleMat c⁻¹ P.mat2, mat3 := scaleMat c⁻¹ P.mat3, r1 := c * P.r1, r2 := c * P.r2, L := c * P.L,
    lmax := P.lmax, lssmax := P.lssmax, precision := P.precision }

end CasSph.Spec
