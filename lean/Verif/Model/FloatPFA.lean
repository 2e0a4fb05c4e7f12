import Verif.Model.FloatMie
import Verif.Model.PFA

/-!
# Model of the Fresnel coefficients (scattering.py) and of the round trips between plates (PFA.py) in rounded arithmetic

As in Model/FloatBessel every operation may return any number close to the exact result; the order of the operations is that
of the code.  Simplifications: no overflow, no underflow; permittivity and permeability are given (as the numbers returned by
`epsilon` and `mu`); negation is exact.
-/

namespace CasSph

namespace FlMie

variable (A : FlMie)

/-- scattering.py:316-318, `np.sqrt(kperp**2 + (kn*n)**2)`. -/
noncomputable def root (kperp kn : ℝ) (a : Medium) : ℝ := A.sqrt (A.add (A.pow kperp 2) (A.pow (A.mul kn (A.n a)) 2))

/-- scattering.py:312-321, `fresnel`. -/
noncomputable def fresnelCore (P M : Medium) (kperp kn : ℝ) : Res (ℝ × ℝ) := do
  let sqrtM := A.root kperp kn M
  let sqrtP := A.root kperp kn P
  let te ← A.quot (A.sub (A.mul P.mu sqrtM) (A.mul M.mu sqrtP)) (A.add (A.mul P.mu sqrtM) (A.mul M.mu sqrtP))
  let tm ← A.quot (A.sub (A.mul P.eps sqrtM) (A.mul M.eps sqrtP)) (A.add (A.mul P.eps sqrtM) (A.mul M.eps sqrtP))
  .ok (te, tm)

/-- scattering.py:13-26, 303-328: `fresnel` or, for a perfect reflector (`none`), `fresnelPEC`. -/
noncomputable def fresnel : Option Medium → Medium → ℝ → ℝ → Res (ℝ × ℝ)
  | none, _, _, _ => .ok (-1, 1)
  | some P, M, kperp, kn => A.fresnelCore P M kperp kn

open Classical in
/-- `math.sqrt` -/
noncomputable def mathSqrt (x : ℝ) : Res ℝ := if x < 0 then .error .valueError else .ok (A.sqrt x)

open Classical in
/-- `math.log` -/
noncomputable def mathLog (x : ℝ) : Res ℝ := if 0 < x then .ok (A.log x) else .error .valueError

/-- PFA.py:14-21, 25-32, 36-43 and 49-56, the common part of the four round-trip methods. -/
noncomputable def factors (P1 P2 : Option Medium) (M : Medium) (kperp kn L : ℝ) : Res PFA.Factors := do
  let r1 ← A.fresnel P1 M kperp kn
  let r2 ← A.fresnel P2 M kperp kn
  let nMd2 := A.mul M.eps M.mu
  let k ← A.mathSqrt (A.add (A.pow kperp 2) (A.mul nMd2 (A.pow kn 2)))
  let e := A.exp (A.mul (A.mul (-2) k) L)
  .ok ⟨k, A.mul (A.mul r1.1 r2.1) e, A.mul (A.mul r1.2 r2.2) e⟩

/-- PFA.py:13-22 `roundTrips` -/
noncomputable def roundTrips (P1 P2 : Option Medium) (M : Medium) (kperp kn L : ℝ) : Res (ℝ × ℝ) := do
  let f ← A.factors P1 P2 M kperp kn L
  let a ← A.mathLog (A.sub 1 f.te)
  let b ← A.mathLog (A.sub 1 f.tm)
  .ok (a, b)

/-- PFA.py:24-33 `roundTrip` -/
noncomputable def roundTrip (P1 P2 : Option Medium) (M : Medium) (kperp kn L : ℝ) : Res ℝ := do
  let f ← A.factors P1 P2 M kperp kn L
  A.mathLog (A.mul (A.sub 1 f.te) (A.sub 1 f.tm))

/-- PFA.py:35-46 `pressureRoundTrips` -/
noncomputable def pressureRoundTrips (P1 P2 : Option Medium) (M : Medium) (kperp kn L : ℝ) : Res (ℝ × ℝ) := do
  let f ← A.factors P1 P2 M kperp kn L
  let a ← A.quot (A.mul (-f.k) f.te) (A.sub 1 f.te)
  let b ← A.quot (A.mul (-f.k) f.tm) (A.sub 1 f.tm)
  .ok (a, b)

/-- PFA.py:48-59 `pressureRoundTrip` -/
noncomputable def pressureRoundTrip (P1 P2 : Option Medium) (M : Medium) (kperp kn L : ℝ) : Res ℝ := do
  let f ← A.factors P1 P2 M kperp kn L
  let a ← A.quot (A.mul (-f.k) f.te) (A.sub 1 f.te)
  let b ← A.quot (A.mul (-f.k) f.tm) (A.sub 1 f.tm)
  .ok (A.add a b)

end FlMie

end CasSph
