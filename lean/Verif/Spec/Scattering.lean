import Verif.Spec.Bessel
import Mathlib.Analysis.Calculus.Deriv.Basic

/-!
# Reference description of scattering at a stratified sphere

In a layer with imaginary wavenumber `q` the radial function of a vector spherical wave of order `l` is a combination of
the two modified spherical Bessel functions.  At an interface between two layers the radial function `u` and `(r u)'/w`
are continuous, where `w` is the permeability for TE waves and the permittivity for TM waves.
-/

namespace CasSph.Spec

/-- A homogeneous layer: wavenumber `q` and response `w` (`mu` for TE, `eps` for TM). -/
structure Layer where
  q : ℝ
  w : ℝ

/-- Positive wavenumber and response. -/
structure Layer.Pos (a : Layer) : Prop where
  q : 0 < a.q
  w : 0 < a.w

/-- The radial function with amplitudes `A` (regular) and `B` (outgoing). -/
noncomputable def radial (l : ℕ) (q A B r : ℝ) : ℝ := A * sphI l (q * r) + B * sphK l (q * r)

/-- The continuity conditions at the sphere of radius `r` between the layers `a` (inside) and `b` (outside). -/
def Matched (l : ℕ) (a b : Layer) (r A B A' B' : ℝ) : Prop :=
  radial l a.q A B r = radial l b.q A' B' r ∧
  deriv (fun s => s * radial l a.q A B s) r / a.w = deriv (fun s => s * radial l b.q A' B' s) r / b.w

/-- `Connects l a A B shells A' B'`: amplitudes `A`, `B` in layer `a` continue through the interfaces `shells` (radius
and next layer, from inside to outside) to amplitudes `A'`, `B'` in the outermost layer. -/
def Connects (l : ℕ) : Layer → ℝ → ℝ → List (ℝ × Layer) → ℝ → ℝ → Prop
  | _, A, B, [], A', B' => A = A' ∧ B = B'
  | a, A, B, (r, b) :: t, A', B' => ∃ A1 B1, Matched l a b r A B A1 B1 ∧ Connects l b A1 B1 t A' B'

/-- `t` is the amplitude (with a minus sign) of the outgoing wave excited by a regular wave of unit amplitude at a
penetrable sphere: the field is regular at the origin. -/
def ScatAmp (l : ℕ) (core : Layer) (shells : List (ℝ × Layer)) (t : ℝ) : Prop :=
  ∃ A, Connects l core A 0 shells 1 (-t)

/-- The same for TE waves at a perfectly conducting core of radius `r` surrounded by the layer `a`. -/
def ScatAmpPecTE (l : ℕ) (r : ℝ) (a : Layer) (shells : List (ℝ × Layer)) (t : ℝ) : Prop :=
  ∃ A B, radial l a.q A B r = 0 ∧ Connects l a A B shells 1 (-t)

/-- The same for TM waves at a perfectly conducting core. -/
def ScatAmpPecTM (l : ℕ) (r : ℝ) (a : Layer) (shells : List (ℝ × Layer)) (t : ℝ) : Prop :=
  ∃ A B, deriv (fun s => s * radial l a.q A B s) r = 0 ∧ Connects l a A B shells 1 (-t)

/-- `t` is the amplitude (with a minus sign) of the regular wave excited inside a cavity `a` of radius `r` in the medium
`b` by an outgoing wave of unit amplitude: outside there is only an outgoing wave. -/
def CavityAmp (l : ℕ) (a b : Layer) (r t : ℝ) : Prop := ∃ B, Matched l a b r (-t) 1 0 B

/-- The same for TE waves in a perfectly conducting cavity. -/
def CavityAmpPecTE (l : ℕ) (a : Layer) (r t : ℝ) : Prop := radial l a.q (-t) 1 r = 0

/-- The same for TM waves in a perfectly conducting cavity. -/
def CavityAmpPecTM (l : ℕ) (a : Layer) (r t : ℝ) : Prop := deriv (fun s => s * radial l a.q (-t) 1 s) r = 0

end CasSph.Spec
