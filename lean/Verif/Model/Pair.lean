import Verif.Model.FiniteSum
import Verif.Model.StaticSum
import Verif.Model.Thermo
import Verif.Model.Scattering

/-! # Model of a geometry of two separate spheres: what `finiteT` gets from `SphereSphere`

The functions of the other files are put together: Mie coefficients, translation coefficients, block matrices, determinants
and the sum over `m`.  The cache of the Mie coefficients is not modelled here (`Model/Geometry`): `mSumme` and `mSumme_k0`
begin with `m = 0`, for which the cache is transparent. -/

namespace CasSph

open scoped Classical

/-- Constructor arguments of `SphereSphere` (geometry.py:41-82) for two homogeneous spheres and `evaluation="lndet"`. -/
structure PairIn where
  mat1 : Material
  mat2 : Material
  mat3 : Material
  r1 : ℝ
  r2 : ℝ
  L : ℝ
  lmax : ℕ
  lssmax : ℕ
  precision : ℝ

/-- A function of `l` from the entries `1, …, n` of an array. -/
def tableOf {n : ℕ} (c : Fin n → Mie) : MieCoef where
  TE := fun l => if h : l - 1 < n then (c ⟨l - 1, h⟩).TE else 0
  TM := fun l => if h : l - 1 < n then (c ⟨l - 1, h⟩).TM else 0
  ln := fun l => if h : l - 1 < n then (c ⟨l - 1, h⟩).ln else 0

/-- geometry.py:133-134, 145-146 `scattering(mat, mat3).mie(k, 1, n, r)` for one wavenumber. -/
noncomputable def mieTable (T : BesTable) (mat md : Material) (n : ℕ) (k r : ℝ) : Res MieCoef := do
  let c ← finM fun i : Fin n => mie T T mat md (i.1 + 1) k r
  .ok (tableOf c)

/-- geometry.py:200-202, 207-208 `scattering(mat, mat3).mie_k0(1, n, r)`. -/
noncomputable def mieTableK0 (frac : ℝ → ℝ → ℝ) (mat md : Material) (n : ℕ) (r : ℝ) : Res MieCoef := do
  let c ← finM fun i : Fin n => mieK0 frac mat md (i.1 + 1) r
  .ok (tableOf c)

/-- geometry.py:84-169 `roundTrip_elements`, the parts that do not depend on `m`, for one wavenumber: Mie coefficients of both
spheres, argument and Bessel functions of the translation (translation.py:44-57). -/
noncomputable def waveIn (T : BesTable) (P : PairIn) (k : ℝ) : Res WaveIn := do
  let a ← mieTable T P.mat1 P.mat3 P.lmax k P.r1
  let b ← mieTable T P.mat2 P.mat3 P.lssmax k P.r2
  let e ← P.mat3.epsilon k
  let rows ← transBessels [k * P.L * Real.sqrt e] (.int (P.lmax + P.lssmax + 1 : ℕ)) 1
  .ok ⟨k * P.L * Real.sqrt e, rows.headD [], a, b⟩

/-- geometry.py:501-516 `mSumme(matsubaras)` without zero wavenumber, with `conv = 0.9` (line 63).  `v m` are the values of
`balanced_slogdet` for `m`, once the loops of `balance` have ended.  If there are none, because a loop does not end or a
value is not finite, the result is outside the model (the last line is arbitrary); C99 shows that this does not happen for
physical materials. -/
noncomputable def pairVals (T : BesTable) (P : PairIn) (ks : List ℝ) : Res (List ℝ) := do
  let ws ← ks.mapM (waveIn T P)
  if h : ∃ v : ℕ → Fin ks.length → ℝ, ∀ m : ℕ, m ≤ P.lmax → ∃ N, ∀ fuel, N < fuel →
      singleM fuel 0.9 P.lmax P.lssmax m ws = some (.ok (List.ofFn fun i => (v m i : EReal)))
  then do
    let r ← mSummeNonzero P.lmax P.precision fun m => .ok (h.choose m)
    .ok (List.ofFn r)
  else .error .valueError

/-- geometry.py:463-473 `mSumme_k0()`, in the same way. -/
noncomputable def pairK0 (frac : ℝ → ℝ → ℝ) (P : PairIn) : Res ℝ := do
  let a ← mieTableK0 frac P.mat1 P.mat3 P.lmax P.r1
  let b ← mieTableK0 frac P.mat2 P.mat3 P.lssmax P.r2
  if h : ∃ v : ℕ → ℝ, ∀ m : ℕ, m ≤ P.lmax → ∃ N, ∀ fuel, N < fuel →
      singleMK0 fuel P.lmax P.lssmax m P.r1 P.r2 P.L a b = some (.ok (some (v m : EReal)))
  then do
    let r ← mSummeK0 P.lmax P.precision fun m => .ok fun _ => h.choose m
    .ok (r 0)
  else .error .valueError

/-- What `finiteT` sees of the geometry. -/
noncomputable def pairGeo (T : BesTable) (frac : ℝ → ℝ → ℝ) (P : PairIn) : Geo where
  trace := false
  blocks0 := fun ks => do
    let ws ← ks.mapM (waveIn T P)
    let _ ← superMatrix P.lmax P.lssmax 0 ws
    .ok ()
  vals := pairVals T P
  k0 := pairK0 frac P

end CasSph
