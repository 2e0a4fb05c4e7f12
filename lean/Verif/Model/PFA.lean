import Verif.Model.Scattering
import Verif.Model.Thermo

/-!
# Model of CasimirRio/PFA.py and CasimirRio/raw_PFA.py

Doubles are reals.  `scipy.integrate.quad` is a parameter (`Quad`): it receives the integrand, which may
raise, and returns a number or passes an exception on.  Arrays with one entry (the frequency in
`planeplaneFreeEnergyHT` and its result) are written as numbers.
-/

namespace CasSph

open Classical

/-- `math.sqrt`: raises `ValueError` for negative arguments. -/
noncomputable def mathSqrt (x : ℝ) : Res ℝ := if x < 0 then .error .valueError else .ok (Real.sqrt x)

/-- `math.log`: raises `ValueError` unless the argument is positive. -/
noncomputable def mathLog (x : ℝ) : Res ℝ := if 0 < x then .ok (Real.log x) else .error .valueError

/-- `scipy.integrate.quad(f, a, b)[0]`: `fin` for finite `b`, `inf` for `b = np.inf`. -/
structure Quad where
  fin : (ℝ → Res ℝ) → ℝ → ℝ → Res ℝ
  inf : (ℝ → Res ℝ) → ℝ → Res ℝ

/-- The temperature argument: a number or `np.inf`. -/
inductive Temp where
  | fin (T : ℝ)
  | inf

/-- PFA.py:7-11, an instance of `SphereSpherePFA`. -/
structure PFA where
  mat1 : Material
  mat2 : Material
  matMd : Material

namespace PFA

/-- The local variables `k`, `efactorTE`, `efactorTM` of the four methods below. -/
structure Factors where
  k : ℝ
  te : ℝ
  tm : ℝ

/-- PFA.py:14-21, 25-32, 36-43 and 49-56, the common part of the four round-trip methods (also raw_PFA.py:14-21 and
25-32). -/
noncomputable def factors (p : PFA) (kperp kn L : ℝ) : Res Factors := do
  let r1 ← fresnel p.mat1 p.matMd kperp kn
  let r2 ← fresnel p.mat2 p.matMd kperp kn
  let e ← p.matMd.epsilon kn
  let m ← p.matMd.mu kn
  let nMd2 := e * m
  let k ← mathSqrt (kperp ^ 2 + nMd2 * kn ^ 2)
  .ok ⟨k, r1.1 * r2.1 * Real.exp (-2 * k * L), r1.2 * r2.2 * Real.exp (-2 * k * L)⟩

/-- PFA.py:13-22 `roundTrips` (raw_PFA.py:13-22 is the same) -/
noncomputable def roundTrips (p : PFA) (kperp kn L : ℝ) : Res (ℝ × ℝ) := do
  let f ← p.factors kperp kn L
  let a ← mathLog (1 - f.te)
  let b ← mathLog (1 - f.tm)
  .ok (a, b)

/-- PFA.py:24-33 `roundTrip` -/
noncomputable def roundTrip (p : PFA) (kperp kn L : ℝ) : Res ℝ := do
  let f ← p.factors kperp kn L
  mathLog ((1 - f.te) * (1 - f.tm))

/-- PFA.py:35-46 `pressureRoundTrips` (raw_PFA.py:24-35 is the same) -/
noncomputable def pressureRoundTrips (p : PFA) (kperp kn L : ℝ) : Res (ℝ × ℝ) := do
  let f ← p.factors kperp kn L
  let a ← cdiv (-f.k * f.te) (1 - f.te)
  let b ← cdiv (-f.k * f.tm) (1 - f.tm)
  .ok (a, b)

/-- PFA.py:48-59 `pressureRoundTrip` -/
noncomputable def pressureRoundTrip (p : PFA) (kperp kn L : ℝ) : Res ℝ := do
  let f ← p.factors kperp kn L
  let a ← cdiv (-f.k * f.te) (1 - f.te)
  let b ← cdiv (-f.k * f.tm) (1 - f.tm)
  .ok (a + b)

/-- PFA.py:68-70, 129-131, raw_PFA.py:44-46 (lower limit 1e-10), 69-71, 91-93, 112-114, the lambda `integralTE`: integral over `k_perp` from `a` -/
noncomputable def integralTE (q : Quad) (p : PFA) (a L kn : ℝ) : Res ℝ :=
  q.inf (fun kperp => do let r ← p.roundTrips kperp kn L; .ok (kperp / (2 * Real.pi) * r.1)) a

/-- PFA.py:71-73, 132-134, raw_PFA.py:47-49, 72-74, 94-96, 115-117, the lambda `integralTM` -/
noncomputable def integralTM (q : Quad) (p : PFA) (a L kn : ℝ) : Res ℝ :=
  q.inf (fun kperp => do let r ← p.roundTrips kperp kn L; .ok (kperp / (2 * Real.pi) * r.2)) a

/-- PFA.py:95-97 and 113-115, the lambda `integral` over `roundTrip` -/
noncomputable def integral (q : Quad) (p : PFA) (L kn : ℝ) : Res ℝ :=
  q.inf (fun kperp => do let r ← p.roundTrip kperp kn L; .ok (kperp / (2 * Real.pi) * r)) 0

/-- PFA.py:154-156, the lambda `integral` over `pressureRoundTrip` -/
noncomputable def pressureIntegral (q : Quad) (p : PFA) (L kn : ℝ) : Res ℝ :=
  q.inf (fun kperp => do let r ← p.pressureRoundTrip kperp kn L; .ok (kperp / (2 * Real.pi) * r)) 0

/-- `f[0] = 0.5*f[0]; if n0_shielding: f[0] = 0` (PFA.py:101-103, 137-141, 159-161); the array is never
empty at the places where this is used, except in `get_f_matsubaras`. -/
noncomputable def weightZero (shield : Bool) : List ℝ → Res (List ℝ)
  | [] => .error .indexError
  | x :: xs => .ok ((if shield then 0 else 0.5 * x) :: xs)

/-- PFA.py:61-81 `planeplaneFreeEnergyHT` (raw_PFA.py:37-57: the same with lower limit `a = 1e-10`) -/
noncomputable def freeEnergyHT (q : Quad) (p : PFA) (a L : ℝ) (shield : Bool) : Res ℝ := do
  let te ← p.integralTE q a L 1e-20
  let tm ← p.integralTM q a L 1e-20
  let te := 0.5 * te
  let tm := 0.5 * tm
  if shield then .ok (0 + 0) else .ok (te + tm)

/-- PFA.py:106-119 `planeplane_e0`; the flag is accepted and not used -/
noncomputable def e0 (q : Quad) (p : PFA) (L : ℝ) (_shield : Bool) : Res ℝ :=
  q.inf (fun kn => p.integral q L kn) 1e-20

/-- PFA.py:92-93, 151-152, raw_PFA.py:66-67: the zero frequency replacement followed by the multiples of `T` -/
noncomputable def matsubaras (zero c T L : ℝ) : Res (List ℝ) := do
  let x ← cdiv c (T * L)
  .ok (zero :: (List.range (pyInt x).toNat).map fun i : ℕ => ((i : ℝ) + 1) * T)

/-- PFA.py:83-104 `planeplaneFreeEnergy` -/
noncomputable def freeEnergy (q : Quad) (p : PFA) (T : Temp) (L : ℝ) (shield : Bool) : Res ℝ :=
  match T with
  | .inf => p.freeEnergyHT q 0 L shield
  | .fin T =>
    if T = 0 then p.e0 q L shield
    else do
      let ms ← matsubaras 1e-10 20 T L
      let fs ← ms.mapM (p.integral q L)
      let fs ← weightZero shield (fs.map (T * ·))
      .ok fs.sum

/-- PFA.py:122-142 `get_f_matsubaras(T, L, matsubaras, n0_shielding)`: rows TE and TM; `T` is not used -/
noncomputable def getFMatsubaras (q : Quad) (p : PFA) (L : ℝ) (ms : List ℝ) (shield : Bool) :
    Res (List ℝ × List ℝ) := do
  let te ← ms.mapM (p.integralTE q 0 L)
  let tm ← ms.mapM (p.integralTM q 0 L)
  let te ← weightZero shield te
  let tm ← weightZero shield tm
  .ok (te, tm)

/-- PFA.py:145-163 `planeplanePressure` -/
noncomputable def pressure (q : Quad) (p : PFA) (T L : ℝ) (shield : Bool) : Res ℝ := do
  let ms ← matsubaras 1e-20 20 T L
  let fs ← ms.mapM (p.pressureIntegral q L)
  let fs ← weightZero shield (fs.map (T * ·))
  .ok fs.sum

/-- PFA.py:189-200 `distance` -/
noncomputable def distance (r1 r2 d rho : ℝ) : Res ℝ := do
  if d > r1 + r2 then
    let x1 ← cdiv rho r1
    let s1 ← mathSqrt (1 - x1 ^ 2)
    let x2 ← cdiv rho r2
    let s2 ← mathSqrt (1 - x2 ^ 2)
    .ok (d - r1 * s1 - r2 * s2)
  else
    let x2 ← cdiv rho r2
    let s2 ← mathSqrt (1 - x2 ^ 2)
    let x1 ← cdiv rho r1
    let s1 ← mathSqrt (1 - x1 ^ 2)
    .ok (r2 * s2 - d - r1 * s1)

/-- PFA.py:166-175 `spheresphereEnergy` -/
noncomputable def sphereEnergy (q : Quad) (p : PFA) (r1 r2 : ℝ) (T : Temp) (d : ℝ) (shield : Bool) : Res ℝ :=
  q.fin (fun rho => do
    let L ← distance r1 r2 d rho
    let f ← p.freeEnergy q T L shield
    .ok (2 * Real.pi * rho * f)) 0 r1

/-- PFA.py:177-187 `spheresphereForce`; the flag is accepted and not used -/
noncomputable def sphereForce (q : Quad) (p : PFA) (r1 r2 : ℝ) (T : Temp) (d : ℝ) (_shield : Bool) : Res ℝ := do
  let nenner := if d < r1 + r2 then max r1 r2 - min r1 r2 else r1 + r2
  let c ← cdiv (2 * Real.pi * r1 * r2) nenner
  let L ← distance r1 r2 d 0
  let f ← p.freeEnergy q T L false
  .ok (c * f)

/-! ## raw_PFA.py -/

/-- raw_PFA.py:84-100 `planeplane_e0`; the flag is accepted and not used -/
noncomputable def rawE0 (q : Quad) (p : PFA) (L : ℝ) (_shield : Bool) : Res ℝ := do
  let te ← q.inf (fun kn => p.integralTE q 0 L kn) 1e-20
  let tm ← q.inf (fun kn => p.integralTM q 0 L kn) 1e-20
  .ok (te + tm)

/-- raw_PFA.py:59-82 `planeplaneFreeEnergy` for finite `T` (`T = np.inf` is not modelled) -/
noncomputable def rawFreeEnergy (q : Quad) (p : PFA) (T L : ℝ) (shield : Bool) : Res ℝ :=
  if T = 0 then p.rawE0 q L shield
  else do
    let ms ← matsubaras 1e-10 100 T L
    let te ← ms.mapM (p.integralTE q 0 L)
    let tm ← ms.mapM (p.integralTM q 0 L)
    let te ← weightZero shield (te.map (T * ·))
    let tm ← weightZero shield (tm.map (T * ·))
    .ok (te.sum + tm.sum)

/-- raw_PFA.py:103-125 `get_f_matsubaras`: the result together with the caller's array after the call (lines 109-110
replace a leading zero in place) -/
noncomputable def rawGetFMatsubaras (q : Quad) (p : PFA) (L : ℝ) (ms : List ℝ) (shield : Bool) :
    Res (List ℝ × List ℝ) :=
  match ms with
  | [] => .error .indexError
  | m0 :: rest => do
    let ms' := (if m0 = 0 then 1e-20 else m0) :: rest
    let te ← ms'.mapM (p.integralTE q 0 L)
    let tm ← ms'.mapM (p.integralTM q 0 L)
    let z : List ℝ → List ℝ := fun fs => if shield then 0 :: fs.tail else fs
    .ok (((z te).zip (z tm)).map (fun x : ℝ × ℝ => x.1 + x.2), ms')

/-- raw_PFA.py:137-139, the lambda `integralTE` over `pressureRoundTrips` -/
noncomputable def rawPressureTE (q : Quad) (p : PFA) (L kn : ℝ) : Res ℝ :=
  q.inf (fun kperp => do let r ← p.pressureRoundTrips kperp kn L; .ok (kperp / (2 * Real.pi) * r.1)) 0

/-- raw_PFA.py:140-142, the lambda `integralTM` over `pressureRoundTrips` -/
noncomputable def rawPressureTM (q : Quad) (p : PFA) (L kn : ℝ) : Res ℝ :=
  q.inf (fun kperp => do let r ← p.pressureRoundTrips kperp kn L; .ok (kperp / (2 * Real.pi) * r.2)) 0

/-- raw_PFA.py:128-150 `planeplanePressure` -/
noncomputable def rawPressure (q : Quad) (p : PFA) (T L : ℝ) (shield : Bool) : Res ℝ := do
  let ms ← matsubaras 1e-20 100 T L
  let te ← ms.mapM (p.rawPressureTE q L)
  let tm ← ms.mapM (p.rawPressureTM q L)
  let te ← weightZero shield (te.map (T * ·))
  let tm ← weightZero shield (tm.map (T * ·))
  .ok (te.sum + tm.sum)

/-- raw_PFA.py:161-165, 176-180: the temperature cases of the two sphere methods -/
noncomputable def rawPlane (q : Quad) (p : PFA) (T : Temp) (L : ℝ) (shield : Bool) : Res ℝ :=
  match T with
  | .inf => p.freeEnergyHT q 1e-10 L shield
  | .fin T => if T = 0 then p.rawE0 q L shield else p.rawFreeEnergy q T L shield

/-- raw_PFA.py:152-165 `spheresphereForce` -/
noncomputable def rawSphereForce (q : Quad) (p : PFA) (r1 r2 : ℝ) (T : Temp) (L : ℝ) (shield ext : Bool) : Res ℝ := do
  let c ← cdiv (2 * Real.pi * (r1 * r2)) (r1 + r2)
  let c ← if ext then .ok c else cdiv (2 * Real.pi * (r1 * r2)) (r2 - r1)
  let f ← p.rawPlane q T L shield
  .ok (c * f)

/-- raw_PFA.py:167-180 `spheresphereEnergy` -/
noncomputable def rawSphereEnergy (q : Quad) (p : PFA) (r1 r2 : ℝ) (T : Temp) (L : ℝ) (shield ext : Bool) : Res ℝ := do
  let c ← cdiv (L * Real.pi * r1 * r2) (r1 + r2)
  let c ← if ext then .ok c else cdiv (L * Real.pi * r1 * r2) (r2 - r1)
  let f ← p.rawPlane q T L shield
  .ok (c * f)

end PFA

end CasSph
