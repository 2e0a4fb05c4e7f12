import Verif.Model.FloatBlocks
import Verif.Model.FloatMie
import Verif.Model.Pair

/-!
# Model of the round-trip matrix in rounded arithmetic

As in Model/FloatMie and Model/FloatBlocks.  The translation coefficients and the permittivities are given: as arrays `V`,
and as the exact numbers that Model/Materials returns.
-/

namespace CasSph

namespace FlMie

variable (A : FlMie)

/-- scattering.py:13-26, 89-143, 261-280: `scattering(mat1, mat2).mie` for one `(k, l)`; see `CasSph.mie`. -/
noncomputable def mieOf (T : BesTable) (mat1 mat2 : Material) (l : ℕ) (k r : ℝ) : Res Mie :=
  match mat1.cls with
  | .pec => do
    let b ← mat2.medium k
    A.miePEC T l k r b
  | _ => do
    let a ← mat1.medium k
    let b ← mat2.medium k
    A.mie T l k r a b

/-- geometry.py:133-134, 145-146 `scattering(mat, mat3).mie(k, 1, n, r)` for one wavenumber. -/
noncomputable def mieTable (T : BesTable) (mat md : Material) (n : ℕ) (k r : ℝ) : Res MieCoef := do
  let c ← finM fun i : Fin n => A.mieOf T mat md (i.1 + 1) k r
  .ok (tableOf c)

end FlMie

/-- geometry.py:151-169, the arrays that `roundTrip_elements` returns, for given Mie and translation coefficients. -/
def elemsOf (lmax lssmax m : ℕ) (a b : MieCoef) (V : Fin (lmax + 1 - transLmin m) → Fin (lssmax + 1 - transLmin m) → VCoef) :
    RTElems (lmax + 1 - transLmin m) (lssmax + 1 - transLmin m) where
  aTE := fun i => a.TE (transLmin m + i.1)
  aTM := fun i => a.TM (transLmin m + i.1)
  a2 := fun i => a.ln (transLmin m + i.1)
  bTE := fun j => b.TE (transLmin m + j.1)
  bTM := fun j => b.TM (transLmin m + j.1)
  b2 := fun j => b.ln (transLmin m + j.1)
  V0 := fun i j => (V i j).EEab
  V1 := fun i j => (V i j).EEba
  V2 := fun i j => (V i j).EMab
  V3 := fun i j => (V i j).EMba
  V4 := fun i j => (V i j).sk

/-- geometry.py:84-169 `roundTrip_elements(m, k)` followed by geometry.py:282-331 `blockmatrices` for two separate homogeneous
spheres and one wavenumber, with the translation coefficients `V`. -/
noncomputable def FlMie.blocksAt (A : FlMie) (sum : (p : ℕ) → (Fin p → ℝ) → ℝ) (T : BesTable) (P : PairIn) (k : ℝ) (m : ℕ)
    (V : Fin (P.lmax + 1 - transLmin m) → Fin (P.lssmax + 1 - transLmin m) → VCoef) : Res (Blocks (P.lmax + 1 - transLmin m)) := do
  let a ← A.mieTable T P.mat1 P.mat3 P.lmax k P.r1
  let b ← A.mieTable T P.mat2 P.mat3 P.lssmax k P.r2
  A.toFlFun.blockmatrices sum (elemsOf P.lmax P.lssmax m a b V)

end CasSph
