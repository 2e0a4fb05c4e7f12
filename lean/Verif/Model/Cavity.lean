import Verif.Model.StratPair

/-! # Model of `SphereSphere` at non-zero wavenumbers, for separate spheres and for a sphere inside a spherical cavity -/

namespace CasSph

open scoped Classical

/-- geometry.py:58, 78-79: `ext_flag`. -/
noncomputable def PairIn.ext (P : PairIn) : Bool := decide (P.L > P.r1 + P.r2)

/-- geometry.py:141-143 `scattering(mat3, mat).mie_internal(k, 1, n, r)` for one wavenumber. -/
noncomputable def mieTableInt (T : BesTable) (md mat : Material) (n : ℕ) (k r : ℝ) : Res MieCoef := do
  let c ← finM fun i : Fin n => mieInternal T T md mat (i.1 + 1) k r
  .ok (tableOf c)

/-- bessel_sk.py:118-131 `trans_bessels([x], n, ext_flag)`, one row.  For `ext_flag = 1` this is `lnknu`.  For `ext_flag = 0` it is `lniknu`, orders
`0, …, n`, taken from the same table `T` of Bessel functions as the Mie coefficients (the deviations of `lniknu` from the exact
functions are the subject of C36-C39). -/
noncomputable def transRow (T : BesTable) (ext : Bool) (x : ℝ) (n : ℕ) : Res (List ℝ) :=
  if ext then do
    let rows ← transBessels [x] (.int n) 1
    .ok (rows.headD [])
  else .ok ((List.range (n + 1)).map fun l => (T l x).i1)

/-- geometry.py:130-169 `roundTrip_elements`, the parts that do not depend on `m`, for one non-zero wavenumber and homogeneous bodies:
Mie coefficients of the sphere and of the other sphere or the wall, argument and Bessel functions of the translation
(translation.py:44-57). -/
noncomputable def geoWave (T : BesTable) (P : PairIn) (k : ℝ) : Res WaveIn := do
  let a ← mieTable T P.mat1 P.mat3 P.lmax k P.r1
  let b ← if ¬ P.ext then mieTableInt T P.mat3 P.mat2 P.lssmax k P.r2 else mieTable T P.mat2 P.mat3 P.lssmax k P.r2
  let e ← P.mat3.epsilon k
  let bes ← transRow T P.ext (k * P.L * Real.sqrt e) (P.lmax + P.lssmax + 1)
  .ok ⟨k * P.L * Real.sqrt e, bes, a, b⟩

/-- geometry.py:501-516 `mSumme(matsubaras)` without zero wavenumber; see `pairVals`. -/
noncomputable def geoVals (T : BesTable) (P : PairIn) (ks : List ℝ) : Res (List ℝ) :=
  valsOf P.lmax P.lssmax P.precision (geoWave T P) ks P.ext

/-- geometry.py:204-206 `scattering(mat3, mat).mie_internal_k0(1, n, r)`; `lmin = max(1, m) = 1`, since the first call of
`mSumme_k0` has `m = 0`. -/
noncomputable def mieTableIntK0 (lnK : ℝ → ℕ → ℝ) (md mat : Material) (n : ℕ) (r : ℝ) : Res MieCoef := do
  let c ← finM fun i : Fin n => mieInternalK0 lnK md mat 1 (i.1 + 1) r
  .ok (tableOf c)

/-- geometry.py:171-220 `roundTrip_elements_k0(m, [0])` followed by geometry.py:222-251 `blockmatrices_k0_int`: the zero-frequency
Mie coefficients `a, b` from `lmin` on together with `trans_k0_int`. -/
noncomputable def blockmatricesK0IntAt (lmax lssmax : ℕ) (m : ℤ) (r1 r2 L : ℝ) (a b : MieCoef) :
    Res (Matrix (Fin (lmax + 1 - transLmin m)) (Fin (lmax + 1 - transLmin m)) ℝ ×
      Matrix (Fin (lmax + 1 - transLmin m)) (Fin (lmax + 1 - transLmin m)) ℝ) :=
  blockmatricesK0Int (n := lmax + 1 - transLmin m) (p := lssmax + 1 - transLmin m) r1 r2 L
    { lmin := transLmin m
      aTE := fun i => a.TE (transLmin m + i.1)
      aTM := fun i => a.TM (transLmin m + i.1)
      aLn := fun i => a.ln (transLmin m + i.1)
      bTE := fun j => b.TE (transLmin m + j.1)
      bTM := fun j => b.TM (transLmin m + j.1)
      bLn := fun j => b.ln (transLmin m + j.1)
      vSgn := fun i j => (transK0Int m (transLmin m + i.1) (transLmin m + j.1)).1
      vLn := fun i j => (transK0Int m (transLmin m + i.1) (transLmin m + j.1)).2 }

/-- geometry.py:458-461 `single_m_k0(m)` for a sphere inside a cavity; see `singleMK0`. -/
noncomputable def singleMK0Int (fuel lmax lssmax : ℕ) (m : ℤ) (r1 r2 L : ℝ) (a b : MieCoef) : Option (Res (Option EReal)) :=
  match blockmatricesK0IntAt lmax lssmax m r1 r2 L a b with
  | .error e => some (.error e)
  | .ok (TE, TM) => slnDetBlockdiagonal fuel 0.9 TE TM

/-- geometry.py:463-473 `mSumme_k0()`.  Separate spheres: `pairK0`.  Otherwise an exception of the first matrices (`m = 0`) ends the
call. -/
noncomputable def geoK0 (frac : ℝ → ℝ → ℝ) (lnK : ℝ → ℕ → ℝ) (P : PairIn) : Res ℝ :=
  if P.ext then pairK0 frac P else do
    let a ← mieTableK0 frac P.mat1 P.mat3 P.lmax P.r1
    let b ← mieTableIntK0 lnK P.mat3 P.mat2 P.lssmax P.r2
    let _ ← blockmatricesK0IntAt P.lmax P.lssmax 0 P.r1 P.r2 P.L a b
    if h : ∃ v : ℕ → ℝ, ∀ m : ℕ, m ≤ P.lmax → ∃ N, ∀ fuel, N < fuel →
        singleMK0Int fuel P.lmax P.lssmax m P.r1 P.r2 P.L a b = some (.ok (some (v m : EReal)))
    then do
      let r ← mSummeK0 P.lmax P.precision fun m => .ok fun _ => h.choose m
      .ok (r 0)
    else .error .valueError

/-- What `finiteT` sees of the geometry. -/
noncomputable def geoGeo (T : BesTable) (frac : ℝ → ℝ → ℝ) (lnK : ℝ → ℕ → ℝ) (P : PairIn) : Geo where
  trace := false
  blocks0 := fun ks => do
    let ws ← ks.mapM (geoWave T P)
    let _ ← superMatrix P.lmax P.lssmax 0 ws P.ext
    .ok ()
  vals := geoVals T P
  k0 := geoK0 frac lnK P

/-- thermodynamics.py:26-71 `finiteT(deltaT, nmax, Tmax, geom, analytic_n0, nprocs)` for such a geometry. -/
noncomputable def geoFiniteT (deltaT : ℝ) (nmax : NMax) (Tmax : ℝ) (P : PairIn) (analyticN0 : Bool) (nprocs : NProcs) (T : BesTable)
    (frac : ℝ → ℝ → ℝ) (lnK : ℝ → ℕ → ℝ) : Res FTParams := do
  let i ← finiteTInit deltaT nmax Tmax P.r1 P.r2 P.L P.lmax false true analyticN0 nprocs
  .ok ⟨deltaT, i.nmax, i.maxstep, i.analyticN0, i.nprocs, geoGeo T frac lnK P⟩

/-- geometry.py:43-82 `SphereSphere(r1, r2, L, mat1, mat2, matMd, lmax, l_offset, lssmax, precision)` with the numerical evaluation
"lndet" and without force flag, for positive cut-offs: the attributes later calls use. -/
noncomputable def sphereSphere (mat1 mat2 mat3 : Material) (r1 r2 L : ℝ) (lmax lOffset lssmax : AutoInt) (precision : ℝ) : Res PairIn := do
  let g ← sphereInit r1 r2 L lmax lOffset lssmax precision 0 .lndet
  .ok ⟨mat1, mat2, mat3, r1, r2, L, g.lmax.toNat, g.lssmax.toNat, precision⟩

end CasSph
