import Verif.Model.Pair
import Verif.Model.Stratified
import Verif.Model.Geometry

/-! # Model of `SphereSphere` for spheres made of several layers

`SphereSphere(r1, r2, L, mat1, mat2, mat3, …)` accepts lists for `mat1`, `r1` (and `mat2`, `r2`): materials from the core to the
surrounding medium and radii of the interfaces.  A list of materials goes with a list of radii; mixtures are not modelled here (with
a list of materials and a number as radius `mie_stratified` raises, C82).  The lists are shortened in place by `mie_stratified` if
they end with superfluous shells; a later call returns the same (C49), so that the lists are treated as constant here.  Lists
shared by both spheres are not modelled. -/

namespace CasSph

open scoped Classical

/-- A sphere as given to the constructor: material (an address) and radius, or the two lists. -/
inductive Ball where
  | solid (mat : ℕ) (r : ℝ)
  | strat (s : StratState)

/-- geometry.py:69-72, thermodynamics.py:41-44: the outer radius `r`, or `r[-1]` for a list. -/
def Ball.radius : Ball → Res ℝ
  | .solid _ r => .ok r
  | .strat s => match s.rs.getLast? with
    | none => .error .indexError
    | some r => .ok r

/-- `type(mat) == list` (geometry.py:129, 196, thermodynamics.py:35). -/
def Ball.isList : Ball → Bool
  | .solid _ _ => false
  | .strat _ => true

/-- Constructor arguments of `SphereSphere` (geometry.py:43-82) for two separate spheres and `evaluation="lndet"`, with the
heap of materials; `mat3` is the address of the medium. -/
structure BallPair where
  H : MatHeap
  ball1 : Ball
  ball2 : Ball
  mat3 : ℕ
  L : ℝ
  lmax : ℕ
  lssmax : ℕ
  precision : ℝ

/-- geometry.py:43-82 `SphereSphere.__init__`: the argument `evaluation` is checked before the radii are taken from the lists. -/
noncomputable def ballInit (b1 b2 : Ball) (L : ℝ) (lmax lOffset lssmax : AutoInt) (precision : ℝ) (forceFlag : ℤ) (ev : Evaluation) :
    Res GeoInit :=
  match evalArg ev with
  | none => .error .valueError
  | some _ => do
    let r1 ← b1.radius
    let r2 ← b2.radius
    sphereInit r1 r2 L lmax lOffset lssmax precision forceFlag ev

/-- geometry.py:130-131, 138-139 `strat_scat(mat, r).mie_stratified(k, 1, n)` for one wavenumber.  The number of recursive calls is
limited by the number of materials (C48), the last line does not occur. -/
noncomputable def stratTable (T : BesTable) (H : MatHeap) (s : StratState) (n : ℕ) (k : ℝ) : Res MieCoef := do
  let i ← stratInit (.list s.mats) (.list s.rs)
  match i with
  | none => .error .attributeError
  | some s => do
    let c ← finM fun i : Fin n => match mieStratified T H (i.1 + 1) k (s.mats.length + 1) s with
      | some (r, _) => r
      | none => .error .valueError
    .ok (tableOf c)

/-- geometry.py:129-134, 135-146, the Mie coefficients of one sphere; the outermost material of the lists plays the role of the
medium, `mat3` is not used then. -/
noncomputable def ballTable (T : BesTable) (H : MatHeap) (mat3 : ℕ) (n : ℕ) (k : ℝ) : Ball → Res MieCoef
  | .solid mat r => mieTable T (H mat) (H mat3) n k r
  | .strat s => stratTable T H s n k

/-- geometry.py:84-169 `roundTrip_elements`, the parts that do not depend on `m`, for one wavenumber. -/
noncomputable def ballWave (T : BesTable) (P : BallPair) (k : ℝ) : Res WaveIn := do
  let a ← ballTable T P.H P.mat3 P.lmax k P.ball1
  let b ← ballTable T P.H P.mat3 P.lssmax k P.ball2
  let e ← (P.H P.mat3).epsilon k
  let rows ← transBessels [k * P.L * Real.sqrt e] (.int (P.lmax + P.lssmax + 1 : ℕ)) 1
  .ok ⟨k * P.L * Real.sqrt e, rows.headD [], a, b⟩

/-- geometry.py:501-516 `mSumme(matsubaras)` without zero wavenumber for given inputs `wave`; see `pairVals`. -/
noncomputable def valsOf (lmax lssmax : ℕ) (precision : ℝ) (wave : ℝ → Res WaveIn) (ks : List ℝ) (ext : Bool := true) :
    Res (List ℝ) := do
  let ws ← ks.mapM wave
  if h : ∃ v : ℕ → Fin ks.length → ℝ, ∀ m : ℕ, m ≤ lmax → ∃ N, ∀ fuel, N < fuel →
      singleM fuel 0.9 lmax lssmax m ws ext = some (.ok (List.ofFn fun i => (v m i : EReal)))
  then do
    let r ← mSummeNonzero lmax precision fun m => .ok (h.choose m)
    .ok (List.ofFn r)
  else .error .valueError

/-- `mSumme` of the geometry. -/
noncomputable def ballVals (T : BesTable) (P : BallPair) (ks : List ℝ) : Res (List ℝ) :=
  valsOf P.lmax P.lssmax P.precision (ballWave T P) ks

/-- geometry.py:463-473, 195-198 `mSumme_k0()`: NotImplementedError if one of the materials is a list. -/
noncomputable def ballK0 (frac : ℝ → ℝ → ℝ) (P : BallPair) : Res ℝ :=
  match P.ball1, P.ball2 with
  | .solid m1 r1, .solid m2 r2 => pairK0 frac ⟨P.H m1, P.H m2, P.H P.mat3, r1, r2, P.L, P.lmax, P.lssmax, P.precision⟩
  | _, _ => .error .notImplementedError

/-- What `finiteT` sees of the geometry. -/
noncomputable def ballGeo (T : BesTable) (frac : ℝ → ℝ → ℝ) (P : BallPair) : Geo where
  trace := false
  blocks0 := fun ks => do
    let ws ← ks.mapM (ballWave T P)
    let _ ← superMatrix P.lmax P.lssmax 0 ws
    .ok ()
  vals := ballVals T P
  k0 := ballK0 frac P

/-- thermodynamics.py:26-71 `finiteT(deltaT, nmax, Tmax, geom, analytic_n0, nprocs)` for such a geometry. -/
noncomputable def ballFiniteT (deltaT : ℝ) (nmax : NMax) (Tmax : ℝ) (P : BallPair) (analyticN0 : Bool) (nprocs : NProcs) (T : BesTable)
    (frac : ℝ → ℝ → ℝ) : Res FTParams := do
  let r1 ← P.ball1.radius
  let r2 ← P.ball2.radius
  let i ← finiteTInit deltaT nmax Tmax r1 r2 P.L P.lmax (P.ball1.isList || P.ball2.isList) true analyticN0 nprocs
  .ok ⟨deltaT, i.nmax, i.maxstep, i.analyticN0, i.nprocs, ballGeo T frac P⟩

end CasSph
